import Verif.Fp.V5bError

/-!
# Properties C228 and C229: how good the computed scores of `ApproxWordListV5b` are
-/

namespace Verif
namespace Fp

open GramSpec IndexSpec

variable {R : Rounding} {cf : List Char → List Char}

/-- **C228.** How far rounding can move the normalised score of a lookup in an `ApproxWordListV5b` from
the exact one, with `N` different `n`s and at most `T` n-grams in query and word: at most
`(5T + 4N + 6)u`. -/
theorem C228_float_v5b_score_error {ns : List ℤ} {q w : List Char} {T : ℕ}
    (hTd : q.length + w.length + 2 ≤ T) (hT : T ≤ 2 ^ 53) (hTu : (T : ℚ) * R.u ≤ 1 / 2)
    (hN : ((ns.length + 1 : ℕ) : ℚ) * R.u ≤ 1 / 2) (hS : (ns.length : ℕ∞) ≤ R.sumMax) :
    |mean1F R (sumScoreVecF R ns true q w) - mean1 (scoreVec ns true q w)| ≤
      (5 * (T : ℚ) + 4 * ns.length + 6) * R.u :=
  sumScore_mean_err hTd hT hTu hN hS

example : mean1F binary64 (sumScoreVecF binary64 [2, 3] true "bananas".toList "banana".toList) =
      427780101967953 / 562949953421312 ∧
    mean1 (scoreVec [2, 3] true "bananas".toList "banana".toList) = 1383 / 1820 := by
  refine ⟨?_, ?_⟩ <;> decide +kernel

/-- A list with `n = 2` and the given words in binary64. -/
def listBF (ws : List String) : WL :=
  v5bRunF binary64 id { demoB₀ with nList := [2] } (ws.map (fun s => .str s.toList))

theorem listBF_reachable (ws : List String) : V5bReachableF binary64 id (listBF ws) :=
  ⟨.int 2, some true, none, _, _, by decide +kernel, rfl⟩

/-- **C228.** The normalised score of a stored word for itself need not be 1.0 in an
`ApproxWordListV5b`: it can come out larger than 1 and smaller than 1. -/
theorem C228_float_v5b_self_score_not_one :
    V5bReachableF binary64 id (listBF ["abcdefgh", "abcdefghi"]) ∧
    (∃ s rest, v5bLookupF binary64 (mean1F binary64) id (listBF ["abcdefgh", "abcdefghi"])
        (.str "abcdefgh".toList) (.int 2) true = .ok (("abcdefgh".toList, s) :: rest) ∧ 1 < s) ∧
    (∃ s rest, v5bLookupF binary64 (mean1F binary64) id (listBF ["abcdefgh", "abcdefghi"])
        (.str "abcdefghi".toList) (.int 2) true = .ok (("abcdefghi".toList, s) :: rest) ∧ s < 1) := by
  have key : ∀ (r : Except PyErr (List (List Char × ℚ))) (v : List Char) (p : ℚ → Bool),
      (match r with
        | .ok ((v', s) :: _) => decide (v' = v) && p s
        | _ => false) = true → ∃ s rest, r = .ok ((v, s) :: rest) ∧ p s = true := by
    intro r v p h
    match r, h with
    | .ok ((v', s) :: rest), h =>
      simp only [Bool.and_eq_true, decide_eq_true_eq] at h
      exact ⟨s, rest, by rw [h.1], h.2⟩
  refine ⟨listBF_reachable _, ?_, ?_⟩
  · obtain ⟨s, rest, h1, h2⟩ := key (v5bLookupF binary64 (mean1F binary64) id
      (listBF ["abcdefgh", "abcdefghi"]) (.str "abcdefgh".toList) (.int 2) true)
      "abcdefgh".toList (fun s => decide (1 < s)) (by decide +kernel)
    exact ⟨s, rest, h1, by simpa using h2⟩
  · obtain ⟨s, rest, h1, h2⟩ := key (v5bLookupF binary64 (mean1F binary64) id
      (listBF ["abcdefgh", "abcdefghi"]) (.str "abcdefghi".toList) (.int 2) true)
      "abcdefghi".toList (fun s => decide (s < 1)) (by decide +kernel)
    exact ⟨s, rest, h1, by simpa using h2⟩

theorem mean1_scoreVec_self {ns : List ℤ} (hne : ns ≠ []) {q : List Char}
    (h : ∀ n ∈ ns, 2 ≤ n ∧ n ≤ (q.length : ℤ) + 2) : mean1 (scoreVec ns true q q) = 1 := by
  have e : scoreVec ns true q q = List.replicate ns.length 1 := by
    unfold scoreVec
    rw [List.map_eq_replicate_iff]
    exact fun n hn => scoreN_self (h n hn).1 (h n hn).2
  have hpos : (0 : ℚ) < ns.length := by exact_mod_cast List.length_pos_iff.2 hne
  rw [e]
  unfold mean1
  rw [List.sum_replicate, List.length_replicate, nsmul_eq_mul, mul_one, div_self hpos.ne']

theorem mean1_scoreVec_ne {ns : List ℤ} {q w : List Char}
    (h : ∀ n ∈ ns, 2 ≤ n ∧ n ≤ (q.length : ℤ) + 2) (hT : q.length + w.length + 2 ≤ 4096)
    (hne : q ≠ w) : mean1 (scoreVec ns true q w) ≤ 1 - 1 / 17179869184 := by
  unfold mean1
  rcases Nat.eq_zero_or_pos (scoreVec ns true q w).length with hz | hz
  · rw [hz]; norm_num
  rw [div_le_iff₀ (by exact_mod_cast hz)]
  have := List.sum_le_card_nsmul (scoreVec ns true q w) (1 - 1 / 17179869184) (by
    intro x hx
    obtain ⟨n, hn, rfl⟩ := List.mem_map.1 hx
    exact scoreN_ne (h n hn).1 (h n hn).2 ((gramsTotal_le n q w).trans hT) hne)
  rw [nsmul_eq_mul] at this
  linarith

/-- **C229.** Looking up a stored word in an `ApproxWordListV5b` with floats returns it first, although
its score need not be 1.0 (C228): the score is 1 up to `(5T + 4N + 6)u`, and every other word has a
strictly smaller one. Normalised, `n`s of at least 2 for which the word has an n-gram, together at most
4094 characters. -/
theorem C229_float_v5b_exact_match (hcf : ∀ w, cf (cf w) = cf w) (hD : ExactDouble R)
    (hu : R.u ≤ 1 / 2 ^ 53) {st : WL} (hr : V5bReachableF R cf st) {w : List Char} {k : ℤ}
    (hw : w ≠ []) (hk : 0 < k) (hmem : st.fold cf w ∈ st.wordList)
    (hn2 : ∀ n ∈ st.nList, 2 ≤ n ∧ n ≤ ((st.fold cf w).length : ℤ) + 2)
    (hfil : st.filterN ≤ ((st.fold cf w).length : ℤ) + 2)
    (hN : st.nList.length ≤ 4096) (hS : (st.nList.length : ℕ∞) ≤ R.sumMax)
    (hM : (st.nList.length : ℕ∞) ≤ R.monoMax)
    (hl : ∀ v ∈ st.wordList, (st.fold cf w).length + v.length ≤ 4094) :
    ∃ s rest, v5bLookupF R (mean1F R) cf st (.str w) (.int k) true =
        .ok ((st.fold cf w, s) :: rest) ∧
      |s - 1| ≤ (5 * (((st.fold cf w).length + (st.fold cf w).length + 2 : ℕ) : ℚ) +
        4 * st.nList.length + 6) * R.u ∧
      ∀ r ∈ rest, r.1 ≠ st.fold cf w ∧ r.2 < s := by
  have hu0 := R.u_pos
  obtain ⟨se, hse, hR⟩ := hr.rounded
  obtain ⟨e1, e2, e3, _⟩ := hR.eqs
  have hi := (hse.reachable hcf).inv hcf
  have hne : st.nList ≠ [] := by rw [e1]; exact hse.nList_ne_nil hcf
  obtain ⟨hcl, hq0, -⟩ := hi.words _ (by rw [← e2]; exact hmem)
  have hnd : st.wordList.Nodup := by rw [e2]; exact hi.nodupW
  have hscan := C226_float_v5b_full_scan hcf hD hr (mean1F_monotone hM) hw hk hq0 hcl
    (fun v hv => by have := hl v hv; omega) true
  set q := st.fold cf w with hq
  have hNq : ((st.nList.length : ℕ) : ℚ) ≤ 4096 := by exact_mod_cast hN
  have hNu : ((st.nList.length + 1 : ℕ) : ℚ) * R.u ≤ 1 / 2 := by
    push_cast
    have : ((st.nList.length : ℚ) + 1) * R.u ≤ 4097 * (1 / 2 ^ 53) :=
      mul_le_mul (by linarith) hu hu0.le (by norm_num)
    refine this.trans (by norm_num)
  have hTu : ∀ T : ℕ, T ≤ 4096 → (T : ℚ) * R.u ≤ 1 / 2 := by
    intro T hT
    have : (T : ℚ) * R.u ≤ 4096 * (1 / 2 ^ 53) :=
      mul_le_mul (by exact_mod_cast hT) hu hu0.le (by norm_num)
    refine this.trans (by norm_num)
  have hlq := hl q hmem
  set f : List Char → ℚ := fun v => mean1F R (sumScoreVecF R st.nList true q v) with hf
  have hself : |f q - 1| ≤ (5 * ((q.length + q.length + 2 : ℕ) : ℚ) + 4 * st.nList.length + 6) * R.u := by
    have := sumScore_mean_err (R := R) (ns := st.nList) (q := q) (w := q)
      (T := q.length + q.length + 2) le_rfl (by omega) (hTu _ (by omega)) hNu hS
    rwa [mean1_scoreVec_self hne hn2] at this
  have herr : ∀ T : ℚ, T ≤ 4096 → (5 * T + 4 * st.nList.length + 6) * R.u ≤ 36870 * (1 / 2 ^ 53) := by
    intro T hT
    rcases le_or_gt 0 (5 * T + 4 * (st.nList.length : ℚ) + 6) with h0 | h0
    · exact mul_le_mul (by linarith) hu hu0.le (by norm_num)
    · exact (mul_nonpos_of_nonpos_of_nonneg h0.le hu0.le).trans (by norm_num)
  have hlt : ∀ v ∈ st.wordList, v ≠ q → f v < f q := by
    intro v hv hvq
    have hlv := hl v hv
    have a := (abs_le.1 (sumScore_mean_err (R := R) (ns := st.nList) (q := q) (w := v)
      (T := 4096) (by omega) (by norm_num) (hTu _ le_rfl) hNu hS)).2
    have b := mean1_scoreVec_ne (ns := st.nList) (q := q) (w := v) hn2 (by omega) (Ne.symm hvq)
    have c := (abs_le.1 hself).1
    have d := herr ((q.length + q.length + 2 : ℕ) : ℚ) (by exact_mod_cast (by omega))
    have d' := herr ((4096 : ℕ) : ℚ) (by norm_num)
    have e : (36870 * (1 / 2 ^ 53) : ℚ) + 36870 * (1 / 2 ^ 53) < 1 / 17179869184 := by norm_num
    have c' := (neg_le_neg d).trans c
    have a' := a.trans d'
    clear a c d d' hself herr
    simp only [hf] at c' ⊢
    linarith
  have hel : Eligible st.nList st.filterN q q := by
    obtain ⟨n, hn⟩ := List.exists_mem_of_ne_nil _ hne
    exact ⟨fun _ => shares_self hq0 hfil, n, hn, shares_self hq0 (hn2 n hn).2⟩
  set D := discovered st.nList st.filterN q st.wordList with hDD
  have hperm : D.Perm _ := discovered_perm st.nList st.filterN q hnd
  have hqD : q ∈ D := hperm.mem_iff.2 (mem_eligibleWords.2 ⟨hmem, hel⟩)
  have hDw : ∀ v ∈ D, v ∈ st.wordList := fun v hv => (mem_eligibleWords.1 (hperm.mem_iff.1 hv)).1
  have hDnd : D.Nodup := nodup_discovered _ _ _ _
  have hsp := sortDesc_perm f D
  have hspw := sortDesc_pairwise f D
  rw [best_eq] at hscan
  cases hsort : sortDesc f D with
  | nil => rw [hsort] at hsp; exact absurd (hsp.mem_iff.2 hqD) List.not_mem_nil
  | cons x l =>
    rw [hsort] at hsp hspw
    have hxq : x = q := by
      by_contra hne'
      have hql : q ∈ l := by
        rcases List.mem_cons.1 (hsp.mem_iff.2 hqD) with h | h
        · exact absurd h.symm hne'
        · exact h
      have h1 := (List.pairwise_cons.1 hspw).1 q hql
      have h2 := hlt x (hDw x (hsp.mem_iff.1 (by simp))) hne'
      exact absurd h1 (not_le.2 h2)
    have hnd' : (x :: l).Nodup := hsp.nodup_iff.2 hDnd
    refine ⟨f q, (l.take (k.toNat - 1)).map (fun v => (v, f v)), ?_, hself, ?_⟩
    · obtain ⟨j, hj⟩ : ∃ j, k.toNat = j + 1 := ⟨k.toNat - 1, by omega⟩
      rw [hscan, hsort, hj, List.take_succ_cons, List.map_cons, hxq]
      rfl
    · intro r hr
      obtain ⟨v, hv, rfl⟩ := List.mem_map.1 hr
      have hvl := List.mem_of_mem_take hv
      have hvq : v ≠ q := by
        rintro rfl
        rw [hxq] at hnd'
        exact (List.nodup_cons.1 hnd').1 hvl
      exact ⟨hvq, hlt v (hDw v (hsp.mem_iff.1 (by simp [hvl]))) hvq⟩

example : v5bLookupF binary64 (mean1F binary64) id (listBF ["abcdefghi", "abcdefgh"])
      (.str "abcdefgh".toList) (.int 1) true =
        .ok [("abcdefgh".toList, 4503599627370497 / 4503599627370496)] ∧
    "abcdefgh".toList ∈ (listBF ["abcdefghi", "abcdefgh"]).wordList ∧
    (∀ n ∈ (listBF ["abcdefghi", "abcdefgh"]).nList, 2 ≤ n ∧ n ≤ ("abcdefgh".toList.length : ℤ) + 2) := by
  refine ⟨?_, ?_, ?_⟩ <;> decide +kernel

end Fp
end Verif
