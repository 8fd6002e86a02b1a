import Verif.Fp.SetProps
import Verif.Fp.BowProps
import Verif.WordSet.EditProps
import Verif.Bow.EditProps
import Verif.Index.EditProps
import Verif.Fp.IndexProps

/-!
# Property C178: misspelt words in rounded arithmetic

`SetReachableF` ranges over all constructor arguments and all finite sequences of calls, `R` over
all roundings; `binary64` is that of Python's floats.
-/

namespace Verif
namespace Fp

open GramSpec WordSetSpec EditSpec BowSpec

variable {R : Rounding} {cf : List Char → List Char} {un : Normalizer}

theorem typo_found_float_aux {st : WS} (h : SetReachableF R cf un st) {q nq o ko : List Char}
    {k : ℤ} {ms : MinSim} (hk : 0 < k) (ha : ms.accepted = true) (hq : q ≠ [])
    (hnq : keyOf st.caseSensitive cf un q = some nq) (hne : nq ≠ []) (ho : o ∈ st.iter)
    (hko : keyOf st.caseSensitive cf un o = some ko) {b : ℕ → ℕ}
    (hb : ∀ n, 1 ≤ n → locDist (located n nq) (located n ko) ≤ b n)
    (hl : match filterSize st.sizes with
      | some f => b f + 2 * f < nq.length + ko.length + 6
      | none => 0 < totalCount st.sizes nq ko)
    (hT : totalCount st.sizes nq ko ≤ 2 ^ 53)
    (hTu : (totalCount st.sizes nq ko : ℚ) * R.u ≤ 1 / 2) :
    ∃ res s, findSimilarF R cf un st (.str q) (.int k) ms = .ok res ∧
      1 - ((st.sizes.map b).sum : ℕ) / (totalCount st.sizes nq ko : ℚ) -
        5 * (totalCount st.sizes nq ko : ℚ) * R.u ≤ s ∧
      ((o, s) ∈ res ∨ ((res.length : ℤ) = k ∧ ∀ r ∈ res, s ≤ r.2)) := by
  obtain ⟨hnd, -, hsz, hpos, hiter, -, hkeys⟩ := h.facts
  obtain ⟨L, hR, -, hres⟩ := C132_float_set_ranking h hk ha hq hnq hne
  rw [hiter] at ho
  obtain ⟨m, hm, rfl⟩ := List.mem_map.1 ho
  have hmk := (hkeys m hm).1
  rw [hko] at hmk
  injection hmk with hmk
  subst hmk
  have hcand : Candidate st.sizes nq m.key := by
    unfold Candidate
    cases hf : filterSize st.sizes with
    | none => rw [hf] at hl; exact hl
    | some f =>
      rw [hf] at hl
      exact shared_gram_of_locDist (hb f (hpos f (filterSize_mem hf))) hl
  have hs := score_of_locDist (fun n hn => hb n (hpos n hn)) (totalCount_pos_of_candidate hcand)
  have herr := abs_le.1 (scoreSF_err (R := R) hsz hT hTu)
  refine ⟨_, scoreSF R st.sizes nq m.key, hres, by linarith [herr.1], ?_⟩
  by_cases hmR : m ∈ L
  · exact Or.inl (List.mem_map.2 ⟨m, hmR, rfl⟩)
  · right
    constructor
    · rw [List.length_map, hR.length]
      have hsub : (m :: L).Subperm
          ((st.members cf un).filter fun m => Candidate st.sizes nq m.key) := by
        apply List.Nodup.subperm
        · refine List.nodup_cons.2 ⟨hmR, ?_⟩
          refine hR.ordered.imp ?_
          rintro a b hab rfl
          rcases hab with hab | hab
          · exact lt_irrefl _ hab
          · exact lt_irrefl _ hab.2
        · intro x hx
          rw [List.mem_filter]
          rcases List.mem_cons.1 hx with rfl | hx
          · exact ⟨hm, by simpa using hcand⟩
          · have := hR.members x hx
            exact ⟨this.1, by simpa using this.2⟩
      have := hsub.length_le
      have hlen := hR.length
      rw [List.length_cons] at this
      omega
    · intro r hr'
      obtain ⟨x, hx, rfl⟩ := List.mem_map.1 hr'
      rcases hR.best m hm hcand hmR x hx with h1 | h1
      · exact h1.le
      · exact h1.1.le

/-- **C178.** With floats a stored word is found by a query that is `e` edits away from it under the
same condition as in exact arithmetic, and its computed score is at least the bound of C171 minus
`5 T u`, where `T` is the number of n-grams of both words; unless `k` words with at least its computed
score are returned instead. -/
theorem C178_float_typo_found {st : WS} (h : SetReachableF R cf un st) {q nq o ko : List Char}
    {k : ℤ} {ms : MinSim} (hk : 0 < k) (ha : ms.accepted = true) (hq : q ≠ [])
    (hnq : keyOf st.caseSensitive cf un q = some nq) (hne : nq ≠ []) (ho : o ∈ st.iter)
    (hko : keyOf st.caseSensitive cf un o = some ko) {e : ℕ} (he : Steps OneEdit e nq ko)
    (hl : match filterSize st.sizes with
      | some f => 2 * e * f + 2 * f < nq.length + ko.length + 6
      | none => 0 < totalCount st.sizes nq ko)
    (hT : totalCount st.sizes nq ko ≤ 2 ^ 53)
    (hTu : (totalCount st.sizes nq ko : ℚ) * R.u ≤ 1 / 2) :
    ∃ res s, findSimilarF R cf un st (.str q) (.int k) ms = .ok res ∧
      1 - ((st.sizes.map fun n => 2 * e * n).sum : ℕ) / (totalCount st.sizes nq ko : ℚ) -
        5 * (totalCount st.sizes nq ko : ℚ) * R.u ≤ s ∧
      ((o, s) ∈ res ∨ ((res.length : ℤ) = k ∧ ∀ r ∈ res, s ≤ r.2)) := by
  refine typo_found_float_aux h hk ha hq hnq hne ho hko (b := fun n => 2 * e * n) ?_ hl hT hTu
  intro n hn
  refine (locDist_steps (fun u v => locDist_oneEdit hn) he).trans (le_of_eq ?_)
  push_cast; ring

/-- **C178.** The same with transpositions of adjacent characters counted as one edit. -/
theorem C178_float_transposition_found {st : WS} (h : SetReachableF R cf un st)
    {q nq o ko : List Char} {k : ℤ} {ms : MinSim} (hk : 0 < k) (ha : ms.accepted = true) (hq : q ≠ [])
    (hnq : keyOf st.caseSensitive cf un q = some nq) (hne : nq ≠ []) (ho : o ∈ st.iter)
    (hko : keyOf st.caseSensitive cf un o = some ko) {e : ℕ} (he : Steps OneEditT e nq ko)
    (hl : match filterSize st.sizes with
      | some f => 2 * e * (f + 1) + 2 * f < nq.length + ko.length + 6
      | none => 0 < totalCount st.sizes nq ko)
    (hT : totalCount st.sizes nq ko ≤ 2 ^ 53)
    (hTu : (totalCount st.sizes nq ko : ℚ) * R.u ≤ 1 / 2) :
    ∃ res s, findSimilarF R cf un st (.str q) (.int k) ms = .ok res ∧
      1 - ((st.sizes.map fun n => 2 * e * (n + 1)).sum : ℕ) / (totalCount st.sizes nq ko : ℚ) -
        5 * (totalCount st.sizes nq ko : ℚ) * R.u ≤ s ∧
      ((o, s) ∈ res ∨ ((res.length : ℤ) = k ∧ ∀ r ∈ res, s ≤ r.2)) := by
  refine typo_found_float_aux h hk ha hq hnq hne ho hko (b := fun n => 2 * e * (n + 1)) ?_ hl hT hTu
  intro n hn
  refine (locDist_steps (fun u v => locDist_oneEditT hn) he).trans (le_of_eq ?_)
  push_cast; ring

/-- A query with a letter too many, in double precision. -/
example : (findSimilarF binary64 (List.map Char.toLower) none wsDemoF (.str "nightt".toList) (.int 1)
      .none).map (fun l => l.map Prod.fst) = .ok [['N', 'i', 'g', 'h', 't']] ∧
    filterSize wsDemoF.sizes = some 3 ∧ 2 * 1 * 3 + 2 * 3 < 6 + 5 + 6 ∧
    Steps OneEdit 1 "nightt".toList "night".toList ∧
    totalCount wsDemoF.sizes "nightt".toList "night".toList = 24 :=
  ⟨by decide +kernel, by decide +kernel, by decide, .step (.del "night".toList 't' []) (.zero _),
    by decide +kernel⟩

theorem mean1_map_le {f g : ℤ → ℚ} : ∀ {ns : List ℤ}, (∀ n ∈ ns, f n ≤ g n) →
    mean1 (ns.map f) ≤ mean1 (ns.map g) := by
  intro ns h
  unfold mean1
  rw [List.length_map, List.length_map]
  exact div_le_div_of_nonneg_right (List.sum_le_sum h) (Nat.cast_nonneg _)

/-- **C178.** A word list with floats (normalised lookup, sizes of at least 2, query and word of at
most 8190 characters): a stored word `e` edits away from the query is returned with a computed score
of at least the mean of the bounds of C172 minus the rounding error, unless `k` words with at least
its computed score are. -/
theorem C178_float_list_typo_found (hcf : ∀ w, cf (cf w) = cf w) (hu : R.u ≤ 1 / 2 ^ 53)
    {stF : WL} (hr : ReachableF R cf stF) {w : List Char} {k : ℤ} (hw : w ≠ []) (hk : 0 < k)
    (hq : Clean (stF.fold cf w)) (hn2 : ∀ n ∈ stF.nList, 2 ≤ n)
    (hone : ∀ n ∈ stF.nList, (IndexSpec.gramsOf n (stF.fold cf w)).length ≠ 1)
    (hden : ∀ v ∈ stF.wordList, ∀ n ∈ stF.nList, IndexSpec.denom n (stF.fold cf w) v ≠ 0)
    (hN : stF.nList.length ≤ 8192) (hS : (stF.nList.length : ℕ∞) ≤ R.sumMax)
    (hl : ∀ v ∈ stF.wordList, (stF.fold cf w).length + v.length ≤ 8190)
    {v : List Char} (hv : v ∈ stF.vocabulary) {e : ℕ} (he : Steps OneEdit e (stF.fold cf w) v)
    (hfil : stF.filterN = 0 ∨
      (2 ≤ stF.filterN ∧ 2 * stF.filterN * (e + 1) < ((stF.fold cf w).length : ℤ) + v.length + 6))
    (hn : ∃ n ∈ stF.nList, 2 * n * (e + 1) < ((stF.fold cf w).length : ℤ) + v.length + 6)
    (hpos : ∀ n ∈ stF.nList, 0 < IndexSpec.denom n (stF.fold cf w) v) :
    ∃ res s, lookupF R (mean1F R) cf stF (.str w) (.int k) true = .ok res ∧
      mean1 (stF.nList.map fun n => 1 - 2 * n * e / (IndexSpec.denom n (stF.fold cf w) v : ℚ)) -
        (4 * ((stF.fold cf w).length + v.length + 2 : ℕ) + 2 * stF.nList.length + 3) * R.u ≤ s ∧
      ((∃ r ∈ res, r.1 = v ∧ (ofLex r.2).1 = s) ∨
        ((res.length : ℤ) = k ∧ ∀ r ∈ res, s ≤ (ofLex r.2).1)) := by
  obtain ⟨res, hres, hb⟩ := C127_float_lookup_best_normalized hcf hu hr hw hk hq hn2 hone hden hN hS hl
  have hp : stF.vocabulary.Perm stF.wordList := List.perm_insertionSort _ _
  have hvw := hp.mem_iff.1 hv
  have hel : IndexSpec.Eligible stF.nList stF.filterN (stF.fold cf w) v := by
    refine ⟨fun h0 => ?_, ?_⟩
    · rcases hfil with hf | ⟨hf, hl⟩
      · exact absurd hf h0
      · exact shares_of_steps hf he hl
    · obtain ⟨n, hn, hl⟩ := hn
      exact ⟨n, hn, shares_of_steps (hn2 n hn) he hl⟩
  refine ⟨res, mean1F R (scoreVecF R stF.nList true (stF.fold cf w) v), hres, ?_, ?_⟩
  · have hlv := hl v hvw
    have h8 : (((stF.fold cf w).length + v.length + 2 : ℕ) : ℚ) ≤ 8192 := by
      exact_mod_cast (by omega : (stF.fold cf w).length + v.length + 2 ≤ 8192)
    have hN' : ((stF.nList.length + 1 : ℕ) : ℚ) ≤ 8193 := by
      exact_mod_cast (by omega : stF.nList.length + 1 ≤ 8193)
    have hup := R.u_pos
    have herr := abs_le.1 (C130_float_score_error (R := R) (ns := stF.nList) (q := stF.fold cf w)
      (w := v) le_rfl (by omega) (by nlinarith) (by nlinarith) hS)
    have hm : mean1 (stF.nList.map fun n =>
        1 - 2 * n * e / (IndexSpec.denom n (stF.fold cf w) v : ℚ)) ≤
        mean1 (IndexSpec.scoreVec stF.nList true (stF.fold cf w) v) :=
      mean1_map_le fun n hn => C172_typo_score (hn2 n hn) he (hpos n hn)
    linarith [herr.1]
  · by_cases hm : v ∈ res.map Prod.fst
    · left
      obtain ⟨r, hr, rfl⟩ := List.mem_map.1 hm
      exact ⟨r, hr, rfl, (hb.scores r hr).2.2.1⟩
    · right
      refine ⟨?_, hb.best v hvw hel hm⟩
      have hsub : (v :: res.map Prod.fst).Subperm
          (IndexSpec.eligibleWords stF.nList stF.filterN (stF.fold cf w) stF.wordList) := by
        apply List.Nodup.subperm (List.nodup_cons.2 ⟨hm, hb.nodup⟩)
        intro x hx
        unfold IndexSpec.eligibleWords
        rw [List.mem_filter]
        rcases List.mem_cons.1 hx with rfl | hx
        · exact ⟨hvw, by simpa using hel⟩
        · obtain ⟨r, hr, rfl⟩ := List.mem_map.1 hx
          have := hb.scores r hr
          exact ⟨this.1, by simpa using this.2.1⟩
      have h1 := hsub.length_le
      have h2 := hb.length
      simp only [List.length_cons, List.length_map] at h1
      omega

/-- "banana" is found by "bananas" (see the example for C127 for the scores). -/
example : demoF.fold id "bananas".toList = "bananas".toList ∧ "banana".toList ∈ demoF.vocabulary ∧
    Steps OneEdit 1 "bananas".toList "banana".toList ∧ demoF.filterN = 0 ∧ (2 : ℤ) ∈ demoF.nList ∧
    ∀ n ∈ demoF.nList, 0 < IndexSpec.denom n "bananas".toList "banana".toList :=
  ⟨by decide +kernel, by decide +kernel, .step (.del "banana".toList 's' []) (.zero _),
    by decide +kernel, by decide +kernel, by decide +kernel⟩

/-- **C178.** The computed bag-of-words distance of a misspelt text is at most the bound of C175 plus
the rounding error and the slack `ε` of the solver. -/
theorem C178_float_misspelt_text {lsa : List (List ℚ) → List (ℕ × ℕ)} {ε : ℚ} (hε : 0 ≤ ε)
    (hl : LsaNear ε lsa) {n : ℤ} (hn : 2 ≤ n) (ps : List (List Char × List Char × ℕ))
    (hps : ∀ p ∈ ps, (Clean p.1 ∧ Small n p.1) ∧ (Clean p.2.1 ∧ Small n p.2.1) ∧ HasGram n p.1 ∧
      HasGram n p.2.1 ∧ Steps OneEdit p.2.2 p.1 p.2.1) (hM : ps.length ≤ 2 ^ 53) {T : ℕ}
    (hT : ∀ p ∈ ps, ∀ p' ∈ ps, p.1.length + p'.2.1.length + 2 ≤ T) (hTu : (T : ℚ) * R.u ≤ 1 / 2)
    {d : ℚ} (hd : bowNmdF R lsa (ps.map fun p => .str p.1) (ps.map fun p => .str p.2.1) (.int n)
      false false = .ok d) :
    d ≤ (ps.map fun p => 2 * (n : ℚ) * p.2.2 / (count n.toNat p.1 + count n.toNat p.2.1)).sum +
      (ε + ps.length * (6 * T + ps.length) * R.u) := by
  obtain ⟨y, -, h1, -, -, h2⟩ := C175_misspelt_text bruteLsa_ok hn ps fun p hp =>
    ⟨(hps p hp).1.1, (hps p hp).2.1.1, (hps p hp).2.2⟩
  have e := (C139_float_bow_error R hε hl bruteLsa_ok (a := ps.map (fun p => p.1))
    (b := ps.map (fun p => p.2.1)) hn (by
      intro w hw
      obtain ⟨p, hp, rfl⟩ := List.mem_map.1 hw
      exact (hps p hp).1) (by
      intro w hw
      obtain ⟨p, hp, rfl⟩ := List.mem_map.1 hw
      exact (hps p hp).2.1) (by simpa using hM) (T := T) (by
      intro v hv w hw
      obtain ⟨p, hp, rfl⟩ := List.mem_map.1 hv
      obtain ⟨p', hp', rfl⟩ := List.mem_map.1 hw
      exact hT p hp p' hp') hTu false (x := d) (y := y)).1
      (by rw [List.map_map, List.map_map]; exact hd) (by rw [List.map_map, List.map_map]; exact h1)
  rw [List.length_map, List.length_map, max_self, min_self] at e
  linarith [(abs_le.1 e).2]

example : bowNmdF binary64 bruteLsa [.str "similarity".toList, .str "of".toList]
      [.str "similarty".toList, .str "of".toList] (.int 2) false false =
        .ok (695794228144013 / 4503599627370496) ∧
    (695794228144013 / 4503599627370496 : ℚ) ≤ 2 * 2 * 1 / (11 + 10) := by
  refine ⟨?_, ?_⟩
  · decide +kernel
  · norm_num

end Fp
end Verif
