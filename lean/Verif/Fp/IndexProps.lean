import Verif.Fp.IndexBest
import Verif.Index.Props

/-!
# Lookups in rounded arithmetic

`WordList` as it runs, with floats. See `Fp/IndexModel.lean` for what is modelled.
-/

namespace Verif
namespace Fp

open EmdSpec GramSpec IndexSpec

variable {R : Rounding} {cf : List Char → List Char} {S : Type} [LinearOrder S]

theorem gramsTotal_le (n : ℤ) (q w : List Char) : gramsTotal n q w ≤ q.length + w.length + 2 := by
  unfold gramsTotal
  rw [length_gramsOf, length_gramsOf]
  unfold numGrams
  split <;> omega

theorem length_gramsOf_le (n : ℤ) (q : List Char) : (gramsOf n q).length ≤ q.length + 1 := by
  rw [length_gramsOf]
  unfold numGrams
  split <;> omega

/-! ### The state -/

/-- C124. Rounding touches nothing but the stored positions: after any calls, the list built with
floats is the list built with exact arithmetic except for the positions, which are the exact ones
rounded, and every `add_word` returns or raises the same. -/
theorem C124_float_state {n : NArg} {cs : Bool} {fn : ℤ} {st₀ : WL} (h0 : WL.new n cs fn = .ok st₀)
    (ops : List WLOp) :
    let st := st₀.run cf ops
    let stF := runF R cf st₀ ops
    stF = { st with ngramPositions := stF.ngramPositions } ∧
    (∀ g, (Dict.get? stF.ngramPositions g).getD [] =
      ((Dict.get? st.ngramPositions g).getD []).map (fun e => (e.1, e.2.map R.fl))) ∧
    ∀ v, (addWordF R cf stF v).2 = (st.addWord cf v).2 := by
  intro st stF
  have hR : Rounded R st stF := by
    apply runF_rounded
    refine ⟨st₀.ngramPositions, rfl, ?_⟩
    intro g
    unfold WL.new at h0
    cases hm : mkNList n with
    | error e => rw [hm] at h0; cases h0
    | ok l =>
      rw [hm] at h0
      injection h0 with h0
      subst h0
      rfl
  refine ⟨?_, ?_, fun v => (addWordF_rounded hR v).2⟩
  · obtain ⟨Q, e, _⟩ := hR
    rw [e]
  · obtain ⟨Q, e, hQ⟩ := hR
    rw [e]
    exact hQ

/-- With floats, the position 1/3 is stored rounded. -/
example : (Dict.get? (runF binary64 id demo₀ [.add (.str "ab".toList)]).ngramPositions
      ("b\x03".toList)) = some [(0, [1])] ∧
    (Dict.get? (runF binary64 id demo₀ [.add (.str "abc".toList)]).ngramPositions
      ("ab".toList)) = some [(0, [6004799503160661 / 18014398509481984])] ∧
    (Dict.get? (demo₀.run id [.add (.str "abc".toList)]).ngramPositions
      ("ab".toList)) = some [(0, [1 / 3])] := by
  refine ⟨?_, ?_, ?_⟩ <;> decide +kernel

/-! ### Scores -/

/-- C125. The score of a word for one `n ≥ 2` is, bit for bit, what `ngram_movers_distance` returns
for the query and the word with `invert=True`. -/
theorem C125_float_score_is_nmd {q w : List Char} (hq : Clean q) (hw : Clean w) {n : ℤ} (hn : 2 ≤ n)
    (normalize : Bool) (hd : normalize = true → denom n q w ≠ 0) :
    nmdF R (.str q) (.str w) (.int n) true normalize = .ok (scoreNF R normalize n q w) := by
  have e : countInt n q + countInt n w = denom n q w := by
    unfold countInt denom; rw [if_pos (by omega)]; ring
  rw [nmdF_valid hq hw hn]
  unfold scoreNF
  rw [simNF_eq_simF hn]
  cases normalize with
  | false => rfl
  | true =>
    have e' : (countInt n q : ℚ) + countInt n w = denom n q w := by exact_mod_cast e
    simp only [if_true, e, hd rfl, if_false, e']

example : scoreNF binary64 true 2 "banana".toList "bandana".toList =
      binary64.fl (simNF binary64 2 "banana".toList "bandana".toList / 15) ∧
    nmdF binary64 (.str "banana".toList) (.str "bandana".toList) (.int 2) true true =
      .ok (scoreNF binary64 true 2 "banana".toList "bandana".toList) := by
  refine ⟨?_, ?_⟩ <;> decide +kernel

theorem mean1F_singleton {x : ℚ} (hx : R.fl x = x) : mean1F R [x] = x := by
  simp [mean1F, sumF, R.sum_single x hx, hx]

/-- C125. A list for a single `n ≥ 2` scores a word exactly as `ngram_movers_distance` does. -/
theorem C125_float_single_n {q w : List Char} (hq : Clean q) (hw : Clean w) {n : ℤ} (hn : 2 ≤ n)
    (normalize : Bool) (hd : normalize = true → denom n q w ≠ 0) :
    nmdF R (.str q) (.str w) (.int n) true normalize =
      .ok (mean1F R (scoreVecF R [n] normalize q w)) := by
  rw [C125_float_score_is_nmd hq hw hn normalize hd]
  congr 1
  unfold scoreVecF
  rw [List.map_singleton, mean1F_singleton (scoreNF_fl normalize n q w)]

theorem mean_score_nonneg {ns : List ℤ} (hS : (ns.length : ℕ∞) ≤ R.sumMax) {q w : List Char}
    (hT : ∀ n ∈ ns, gramsTotal n q w ≤ 2 ^ 53) : 0 ≤ mean1F R (scoreVecF R ns true q w) := by
  have h1 := scoreVecF_floats (R := R) true hT
  refine le_trans (mul_nonneg (one_sub_pow_nonneg _) (mean1_nonneg (fun x hx => (h1 x hx).1)))
    (mean1F_bounds h1 ?_).1
  unfold scoreVecF; rwa [List.length_map]

/-- C125. Normalised scores are between 0 and 1 for every list of `n`s, and so is their mean. -/
theorem C125_float_score_range {ns : List ℤ} (hN : ns.length ≤ 2 ^ 53)
    (hS : (ns.length : ℕ∞) ≤ R.sumMax) {q w : List Char} (hl : q.length + w.length + 2 ≤ 2 ^ 53) :
    (∀ n ∈ ns, 0 ≤ scoreNF R true n q w ∧ scoreNF R true n q w ≤ 1) ∧
    0 ≤ mean1F R (scoreVecF R ns true q w) ∧ mean1F R (scoreVecF R ns true q w) ≤ 1 := by
  have hT : ∀ n, gramsTotal n q w ≤ 2 ^ 53 := fun n => (gramsTotal_le n q w).trans hl
  refine ⟨fun n _ => ⟨scoreNF_nonneg (hT n), (scoreNF_bounds (hT n)).2.2⟩, ?_, ?_⟩
  · exact mean_score_nonneg hS (fun n _ => hT n)
  · apply mean1F_le_one (scoreVecF_floats true (fun n _ => hT n))
    · intro x hx
      obtain ⟨n, _, rfl⟩ := List.mem_map.1 hx
      exact (scoreNF_bounds (hT n)).2.2
    · unfold scoreVecF; rw [List.length_map]; exact hS
    · unfold scoreVecF; rw [List.length_map]; exact hN

example : mean1F binary64 (scoreVecF binary64 [1, 2, 4] true "banana".toList "bandana".toList) ≠ 0 ∧
    mean1F binary64 (scoreVecF binary64 [1, 2, 4] true "banana".toList "bandana".toList) ≠ 1 := by
  refine ⟨?_, ?_⟩ <;> decide +kernel

/-! ### Lookups -/

/-- `demo` with floats. -/
def demoF : WL := runF binary64 id demo₀ demoOps

theorem demoF_reachable : ReachableF binary64 id demoF :=
  ⟨.iter [3, 2, 3], true, 0, demo₀, demoOps, by decide +kernel, rfl⟩

/-- From the threshold to the best words. -/
theorem best_of_picked {agg : List ℚ → S} {ns : List ℤ} {filterN : ℤ}
    {normalize : Bool} {words : List (List Char)} (hnd : words.Nodup) {q : List Char} {t : S} {k : ℕ}
    {res : List (List Char × (S ×ₗ ℚ))}
    (h2 : ∀ v ∈ words, agg (lowerVecF R ns normalize q v) ≤
      agg ((lowerVecF R ns normalize q v).map (fun x => R.fl (x * 2))))
    (hmany : min k (eligibleWords ns filterN q words).length ≤
      ((eligibleWords ns filterN q words).filter
        (fun v => t ≤ agg (lowerVecF R ns normalize q v))).length)
    (h : PickedF R agg ns normalize (keptWords R agg ns filterN normalize words q t) k q res)
    (hprune : ∀ w ∈ words, ∀ v ∈ words,
      agg ((lowerVecF R ns normalize q w).map (fun x => R.fl (x * 2))) < t →
      t ≤ agg (lowerVecF R ns normalize q v) →
      agg (scoreVecF R ns normalize q w) ≤ agg (scoreVecF R ns normalize q v)) :
    BestF R agg ns filterN normalize words k q res := by
  obtain ⟨hlen, hge⟩ := picked_ge hnd h2 hmany h
  refine ⟨h.nodup, ?_, hlen, h.sorted, ?_⟩
  · intro r hr
    obtain ⟨h1, h2, h3⟩ := h.scores r hr
    obtain ⟨h4, h5⟩ := mem_eligibleWords.1 (mem_keptWords.1 h1).1
    exact ⟨h4, h5, h2, h3⟩
  · intro w hw hel hn r hr
    by_cases hk : t ≤ agg ((lowerVecF R ns normalize q w).map (fun x => R.fl (x * 2)))
    · exact h.best w (mem_keptWords.2 ⟨mem_eligibleWords.2 ⟨hw, hel⟩, hk⟩) hn r hr
    · exact hge _ (fun v hv _ hle => hprune w hw v hv (not_le.1 hk) hle) r hr

theorem bestF_nil {agg : List ℚ → S} {ns : List ℤ} {filterN : ℤ} {normalize : Bool}
    {words : List (List Char)} {q : List Char} {k : ℕ} (h : eligibleWords ns filterN q words = []) :
    BestF R agg ns filterN normalize words k q [] := by
  refine ⟨by simp, by simp, by simp [h], by simp, by simp⟩

/-- C126. Unnormalised lookups are exact with respect to the computed scores: for every monotone
aggregate the result consists of the best `k` eligible words, in order, and none better is left out.
(The counts in the first pass are integers, and integers below 2^53 survive rounding.) -/
theorem C126_float_lookup_best (hcf : ∀ w, cf (cf w) = cf w) {stF : WL} (hr : ReachableF R cf stF)
    {agg : List ℚ → S} (hagg : MonotoneAggF R stF.nList.length agg) {w : List Char} {k : ℤ}
    (hw : w ≠ []) (hk : 0 < k) (hq : Clean (stF.fold cf w))
    (hone : ∀ n ∈ stF.nList, (gramsOf n (stF.fold cf w)).length ≠ 1)
    (hl : ∀ v ∈ stF.wordList, (stF.fold cf w).length + v.length + 2 ≤ 2 ^ 53) :
    ∃ res, lookupF R agg cf stF (.str w) (.int k) false = .ok res ∧
      BestF R agg stF.nList stF.filterN false stF.wordList k.toNat (stF.fold cf w) res := by
  obtain ⟨st, hst, hR⟩ := hr.rounded
  obtain ⟨e1, e2, e3, _⟩ := hR.eqs
  have hi := hst.inv hcf
  rw [e1, e2, e3]
  rw [e1] at hone hagg
  rw [e2] at hl
  set q := stF.fold cf w with hqd
  have hT : ∀ v ∈ st.wordList, ∀ n ∈ st.nList, gramsTotal n q v ≤ 2 ^ 53 :=
    fun v hv n _ => (gramsTotal_le n q v).trans (hl v hv)
  rcases lookupF_spec hi hR agg hw hk hqd.symm hq false with ⟨he, hl⟩ | ⟨t, _, hmany, _, hok⟩
  · exact ⟨[], hl, bestF_nil he⟩
  · obtain ⟨res, hres, hp⟩ := hok (by
      rintro (⟨n, hn, h⟩ | ⟨h, _⟩)
      · exact hone n hn h
      · cases h)
    refine ⟨res, hres, best_of_picked hi.nodupW
      (fun v hv => lower_le_two_lower hagg (hT v hv)) hmany hp ?_⟩
    intro v hv v' hv' h1 h2
    have a : agg (scoreVecF R st.nList false q v) ≤
        agg ((lowerVecF R st.nList false q v).map (fun x => R.fl (x * 2))) := by
      apply hagg _ _ (by simp [scoreVecF]) (scoreVecF_floats false (hT v hv))
        (doubled_floats (lowerVecF_floats false (hT v hv)))
      unfold scoreVecF lowerVecF
      rw [List.map_map, List.forall₂_map_left_iff, List.forall₂_map_right_iff]
      apply List.forall₂_same.2
      intro n hn
      have hTn := hT v hv n hn
      simp only [scoreNF, lowerNF, Function.comp, Bool.false_eq_true, if_false]
      refine (simNF_le hTn).trans ?_
      have e : R.fl (commonN n q v * 2) = commonN n q v * 2 := by
        rw [← itemsMin_itemsN]
        have h1 := two_mul_itemsMin_le (itemsN n q v)
        have h2 := itemsLen_itemsN_le n q v
        unfold gramsTotal at hTn
        have := R.nat (itemsMin (itemsN n q v) * 2) (by omega)
        push_cast at this
        exact this
      rw [e]; linarith
    have b : agg (lowerVecF R st.nList false q v') ≤ agg (scoreVecF R st.nList false q v') := by
      apply hagg _ _ (by simp [lowerVecF]) (lowerVecF_floats false (hT v' hv'))
        (scoreVecF_floats false (hT v' hv'))
      unfold scoreVecF lowerVecF
      rw [List.forall₂_map_left_iff, List.forall₂_map_right_iff]
      apply List.forall₂_same.2
      intro n hn
      simp only [scoreNF, lowerNF, Bool.false_eq_true, if_false]
      exact le_simNF (hT v' hv' n hn)
    exact a.trans (h1.le.trans (h2.trans b))

/-- C126. With an eligible word, a configured `n` for which the query has exactly one n-gram makes every
lookup raise `ZeroDivisionError`; without eligible words the result is empty. -/
theorem C126_float_lookup_raises (hcf : ∀ w, cf (cf w) = cf w) {stF : WL} (hr : ReachableF R cf stF)
    (agg : List ℚ → S) {w : List Char} {k : ℤ} (hw : w ≠ []) (hk : 0 < k)
    (hq : Clean (stF.fold cf w)) (normalize : Bool) :
    ((∀ v ∈ stF.wordList, ¬ Eligible stF.nList stF.filterN (stF.fold cf w) v) →
      lookupF R agg cf stF (.str w) (.int k) normalize = .ok []) ∧
    ((∃ v ∈ stF.wordList, Eligible stF.nList stF.filterN (stF.fold cf w) v) →
      (∃ n ∈ stF.nList, (gramsOf n (stF.fold cf w)).length = 1) →
      lookupF R agg cf stF (.str w) (.int k) normalize = .error .zeroDivisionError) := by
  obtain ⟨st, hst, hR⟩ := hr.rounded
  obtain ⟨e1, e2, e3, _⟩ := hR.eqs
  have hi := hst.inv hcf
  rw [e1, e2, e3]
  rcases lookupF_spec hi hR agg hw hk rfl hq normalize with ⟨he, hl⟩ | ⟨t, ⟨v, hv, _⟩, _, hz, _⟩
  · refine ⟨fun _ => hl, ?_⟩
    rintro ⟨v, hv, hel⟩ _
    have := mem_eligibleWords.2 ⟨hv, hel⟩
    rw [he] at this
    cases this
  · refine ⟨fun h => ?_, fun _ h => hz (Or.inl h)⟩
    obtain ⟨h1, h2⟩ := mem_eligibleWords.1 hv
    exact absurd h2 (h v h1)

example :
    let st := runF binary64 id { demo₀ with nList := [2, 4] } [.add (.str "abc".toList)]
    plain (lookupF binary64 (mean1F binary64) id st (.str "ab".toList) (.int 1) true) =
      .error .zeroDivisionError ∧
    (gramsOf 4 "ab".toList).length = 1 ∧ Eligible st.nList st.filterN "ab".toList "abc".toList ∧
    plain (lookupF binary64 (mean1F binary64) id st (.str "xyz".toList) (.int 1) true) = .ok [] := by
  refine ⟨?_, ?_, ?_, ?_⟩ <;> decide +kernel

example : plain (lookupF binary64 (mean1F binary64) id demoF (.str "bananas".toList) (.int 2) false) =
      .ok [("banana", 1499524429500221 / 140737488355328, 3277172943131209 / 281474976710656),
        ("bandana", 4376265709334723 / 562949953421312, 1367164172594615 / 140737488355328)] ∧
    (∀ n ∈ demoF.nList, (gramsOf n "bananas".toList).length ≠ 1) ∧
    (∀ v ∈ demoF.wordList, "bananas".toList.length + v.length + 2 ≤ 2 ^ 53) := by
  refine ⟨?_, ?_, ?_⟩ <;> decide +kernel

/-- C127. Normalised lookups with `n`s of at least 2 (such as the default) are exact with respect to
the computed scores as well, if query and word together have at most 8190 characters: pruning with
rounded bounds never loses one of the best words. -/
theorem C127_float_lookup_best_normalized (hcf : ∀ w, cf (cf w) = cf w) (hu : R.u ≤ 1 / 2 ^ 53)
    {stF : WL} (hr : ReachableF R cf stF) {w : List Char} {k : ℤ} (hw : w ≠ []) (hk : 0 < k)
    (hq : Clean (stF.fold cf w)) (hn2 : ∀ n ∈ stF.nList, 2 ≤ n)
    (hone : ∀ n ∈ stF.nList, (gramsOf n (stF.fold cf w)).length ≠ 1)
    (hden : ∀ v ∈ stF.wordList, ∀ n ∈ stF.nList, denom n (stF.fold cf w) v ≠ 0)
    (hN : stF.nList.length ≤ 8192) (hS : (stF.nList.length : ℕ∞) ≤ R.sumMax)
    (hl : ∀ v ∈ stF.wordList, (stF.fold cf w).length + v.length ≤ 8190) :
    ∃ res, lookupF R (mean1F R) cf stF (.str w) (.int k) true = .ok res ∧
      BestF R (mean1F R) stF.nList stF.filterN true stF.wordList k.toNat (stF.fold cf w) res := by
  obtain ⟨st, hst, hR⟩ := hr.rounded
  obtain ⟨e1, e2, e3, _⟩ := hR.eqs
  have hi := hst.inv hcf
  rw [e1, e2, e3]
  rw [e1] at hone hn2 hN hS
  rw [e2] at hl
  rw [e1, e2] at hden
  set q := stF.fold cf w with hqd
  have hT8 : ∀ v ∈ st.wordList, ∀ n ∈ st.nList, gramsTotal n q v ≤ 8192 := by
    intro v hv n _
    have := gramsTotal_le n q v
    have := hl v hv
    omega
  have hT : ∀ v ∈ st.wordList, ∀ n ∈ st.nList, gramsTotal n q v ≤ 2 ^ 53 :=
    fun v hv n hn => (hT8 v hv n hn).trans (by norm_num)
  rcases lookupF_spec hi hR (mean1F R) hw hk hqd.symm hq true with ⟨he, hl⟩ | ⟨t, _, hmany, _, hok⟩
  · exact ⟨[], hl, bestF_nil he⟩
  · obtain ⟨res, hres, hp⟩ := hok (by
      rintro (⟨n, hn, h⟩ | ⟨_, v, hv, _, _, n, hn, h⟩)
      · exact hone n hn h
      · exact hden v hv n hn h)
    refine ⟨res, hres, best_of_picked hi.nodupW (fun v hv => mean1F_double
      (lowerVecF_floats true (hT v hv)) (by simpa [lowerVecF] using hS)) hmany hp ?_⟩
    intro v hv v' hv' h1 h2
    have hLe : ∀ v ∈ st.wordList, ∀ n ∈ st.nList, (sharedGrams n q v).length ≤ 8192 := by
      intro v hv n hn
      have a := length_sharedGrams_le n q v
      have b := hT8 v hv n hn
      unfold gramsTotal at b
      omega
    have key := pruned_le (R := R) (κ := 1 + 1 / 8192) (t := t) (by norm_num) hS (hLe v hv)
      (hLe v' hv') (hT v hv) (hT v' hv')
      (fun n hn => scoreNF_gap hu (hn2 n hn) hq (hi.words v' hv').1 (hT8 v' hv' n hn)) h1.le h2
    refine le_trans ?_ key
    have s0 : 0 ≤ mean1F R (scoreVecF R st.nList true q v) := mean_score_nonneg hS (hT v hv)
    have hc : 1 ≤ (1 - ((4 * st.nList.length + 2 * 8192 + 9 : ℕ) : ℚ) * R.u) * (1 + 1 / 8192) := by
      have hM : ((4 * st.nList.length + 2 * 8192 + 9 : ℕ) : ℚ) ≤ 49161 := by
        exact_mod_cast (by omega : 4 * st.nList.length + 2 * 8192 + 9 ≤ 49161)
      have : ((4 * st.nList.length + 2 * 8192 + 9 : ℕ) : ℚ) * R.u ≤ 49161 * (1 / 2 ^ 53) :=
        mul_le_mul hM hu R.u_pos.le (by norm_num)
      nlinarith
    nlinarith

example : plain (lookupF binary64 (mean1F binary64) id demoF (.str "bananas".toList) (.int 2) true) =
      .ok [("banana", 427780101967953 / 562949953421312, 6991302278679913 / 9007199254740992),
        ("bandana", 576353523740867 / 1125899906842624, 1367164172594615 / 2251799813685248)] ∧
    (∀ n ∈ demoF.nList, 2 ≤ n ∧ (gramsOf n "bananas".toList).length ≠ 1) ∧
    (∀ v ∈ demoF.wordList, ∀ n ∈ demoF.nList, denom n "bananas".toList v ≠ 0) ∧
    demoF.wordList.length = 3 ∧ binary64.u ≤ 1 / 2 ^ 53 := by
  refine ⟨?_, ?_, ?_, ?_, ?_⟩ <;> decide +kernel

/-- C128. Whatever the `n`s, a normalised lookup returns as many words as possible, and what it leaves
out is better than what it returns by at most a few rounding errors. -/
theorem C128_float_lookup_near_best (hcf : ∀ w, cf (cf w) = cf w) {stF : WL}
    (hr : ReachableF R cf stF) (hS : (stF.nList.length : ℕ∞) ≤ R.sumMax) {w : List Char} {k : ℤ}
    (hw : w ≠ []) (hk : 0 < k) (hq : Clean (stF.fold cf w))
    (hone : ∀ n ∈ stF.nList, (gramsOf n (stF.fold cf w)).length ≠ 1)
    (hden : ∀ v ∈ stF.wordList, ∀ n ∈ stF.nList, denom n (stF.fold cf w) v ≠ 0)
    (hl : ∀ v ∈ stF.wordList, (stF.fold cf w).length + v.length + 2 ≤ 2 ^ 53) :
    ∃ res, lookupF R (mean1F R) cf stF (.str w) (.int k) true = .ok res ∧
      (res.map Prod.fst).Nodup ∧
      res.length = min k.toNat (eligibleWords stF.nList stF.filterN (stF.fold cf w) stF.wordList).length ∧
      res.Pairwise (fun a b => b.2 ≤ a.2) ∧
      (∀ r ∈ res, r.1 ∈ stF.wordList ∧ Eligible stF.nList stF.filterN (stF.fold cf w) r.1 ∧
        (ofLex r.2).1 = mean1F R (scoreVecF R stF.nList true (stF.fold cf w) r.1)) ∧
      ∀ v ∈ stF.wordList, Eligible stF.nList stF.filterN (stF.fold cf w) v → v ∉ res.map Prod.fst →
        ∀ r ∈ res, (1 - ((4 * stF.nList.length + 2 * (stF.fold cf w).length + 11 : ℕ) : ℚ) * R.u) *
          mean1F R (scoreVecF R stF.nList true (stF.fold cf w) v) ≤ (ofLex r.2).1 := by
  obtain ⟨st, hst, hR⟩ := hr.rounded
  obtain ⟨e1, e2, e3, _⟩ := hR.eqs
  have hi := hst.inv hcf
  rw [e1, e2, e3]
  rw [e1] at hone hS
  rw [e2] at hl
  rw [e1, e2] at hden
  set q := stF.fold cf w with hqd
  have hT : ∀ v ∈ st.wordList, ∀ n ∈ st.nList, gramsTotal n q v ≤ 2 ^ 53 :=
    fun v hv n _ => (gramsTotal_le n q v).trans (hl v hv)
  have hu := R.u_pos
  rcases lookupF_spec hi hR (mean1F R) hw hk hqd.symm hq true with ⟨he, hl⟩ | ⟨t, _, hmany, _, hok⟩
  · exact ⟨[], hl, by simp, by simp [he], by simp, by simp, by simp⟩
  · obtain ⟨res, hres, hp⟩ := hok (by
      rintro (⟨n, hn, h⟩ | ⟨_, v, hv, _, _, n, hn, h⟩)
      · exact hone n hn h
      · exact hden v hv n hn h)
    obtain ⟨hlen, hge⟩ := picked_ge hi.nodupW (fun v hv => mean1F_double
      (lowerVecF_floats true (hT v hv)) (by simpa [lowerVecF] using hS)) hmany hp
    refine ⟨res, hres, hp.nodup, hlen, hp.sorted, ?_, ?_⟩
    · intro r hr
      obtain ⟨h1, h2, h3⟩ := hp.scores r hr
      obtain ⟨h4, h5⟩ := mem_eligibleWords.1 (mem_keptWords.1 h1).1
      exact ⟨h4, h5, h2⟩
    · intro v hv hel hn r hr
      have h0 : ∀ v ∈ st.wordList, ∀ n ∈ st.nList, 0 ≤ scoreNF R true n q v :=
        fun v hv n hn => scoreNF_nonneg (hT v hv n hn)
      have s0 : 0 ≤ mean1F R (scoreVecF R st.nList true q v) := mean_score_nonneg hS (hT v hv)
      by_cases hk : t ≤ mean1F R ((lowerVecF R st.nList true q v).map (fun x => R.fl (x * 2)))
      · have := hp.best v (mem_keptWords.2 ⟨mem_eligibleWords.2 ⟨hv, hel⟩, hk⟩) hn r hr
        refine le_trans ?_ this
        have h1 : 0 ≤ ((4 * st.nList.length + 2 * q.length + 11 : ℕ) : ℚ) * R.u := by positivity
        nlinarith
      · refine hge _ (fun v' hv' _ hle => ?_) r hr
        have hLe : ∀ v ∈ st.wordList, ∀ n ∈ st.nList, (sharedGrams n q v).length ≤ q.length + 1 :=
          fun v _ n _ => (length_sharedGrams_le n q v).trans (length_gramsOf_le n q)
        have key := pruned_le (R := R) (κ := 1) (t := t) (by norm_num) hS (hLe v hv)
          (hLe v' hv') (hT v hv) (hT v' hv') (fun n hn => by
            rw [one_mul]; exact (scoreNF_bounds (hT v' hv' n hn)).1) (not_le.1 hk).le hle
        rw [mul_one, show 4 * st.nList.length + 2 * (q.length + 1) + 9 =
          4 * st.nList.length + 2 * q.length + 11 by omega] at key
        exact key

example :
    let st := runF binary64 id { demo₀ with nList := [1, 2] } demoOps
    (plain (lookupF binary64 (mean1F binary64) id st (.str "bananas".toList) (.int 2) true)).map
        (List.map Prod.fst) = .ok ["banana", "bandana"] ∧
    (∀ n ∈ st.nList, (gramsOf n "bananas".toList).length ≠ 1) ∧
    ∀ v ∈ st.wordList, ∀ n ∈ st.nList, denom n "bananas".toList v ≠ 0 := by
  refine ⟨?_, ?_, ?_⟩ <;> decide +kernel

/-! ### Exact matches -/

theorem simNF_ne (hu : R.u ≤ 1 / 2 ^ 53) {n : ℤ} (hn : 2 ≤ n) {q w : List Char}
    (hla : n ≤ (q.length : ℤ) + 2) (hT : gramsTotal n q w ≤ 8192) (hne : q ≠ w) :
    simNF R n q w ≤ gramsTotal n q w - 1 / 33554432 := by
  have hT53 : gramsTotal n q w ≤ 2 ^ 53 := hT.trans (by norm_num)
  have hTq : (gramsTotal n q w : ℚ) ≤ 8192 := by exact_mod_cast hT
  have hu0 := R.u_pos
  have e := (abs_le.1 (simNF_err (R := R) hT53 (by nlinarith))).2
  have len : ∀ v : List Char, (gramsOf n v).length = count n.toNat v := by
    intro v
    unfold gramsOf
    rw [if_pos (by omega), grams, List.length_map, List.length_range]
  have eg : ∀ v : List Char, locatedOf (gramsOf n v) = located n.toNat v := by
    intro v
    rw [← located_eq_locatedOf (by omega), getNGrams_eq_gramsOf]
  have g := locDist_ge (n := n.toNat) (a := q) (b := w) (by omega) (by omega) hne
  rw [← eg, ← eg, ← simN_eq] at g
  have hTd : (gramsTotal n q w : ℚ) = (count n.toNat q : ℚ) + count n.toNat w := by
    unfold gramsTotal; rw [len, len]; push_cast; rfl
  rw [← hTd] at g
  have far : (1 : ℚ) / 16777216 ≤ gramsTotal n q w - simN n q w := by
    refine le_trans ?_ g
    have hm : max 1 (count n.toNat q - 1) * max 1 (count n.toNat w - 1) ≤ 16777216 := by
      unfold gramsTotal at hT
      rw [len, len] at hT
      have hq1 : 1 ≤ count n.toNat q := by rw [count_eq]; omega
      by_cases hw0 : count n.toNat w = 0
      · rw [hw0]
        simp only [Nat.zero_sub, Nat.max_eq_left (Nat.zero_le 1), mul_one]
        omega
      have h1 : max 1 (count n.toNat q - 1) ≤ count n.toNat q := by omega
      have h2 : max 1 (count n.toNat w - 1) ≤ count n.toNat w := by omega
      refine (Nat.mul_le_mul h1 h2).trans ?_
      nlinarith [sq_nonneg ((count n.toNat q : ℤ) - count n.toNat w)]
    have hm1 : (0 : ℚ) < ((max 1 (count n.toNat q - 1) : ℕ) : ℚ) *
        ((max 1 (count n.toNat w - 1) : ℕ) : ℚ) := by positivity
    apply one_div_le_one_div_of_le hm1
    exact_mod_cast hm
  have hsq : (gramsTotal n q w : ℚ) ^ 2 * R.u ≤ 67108864 * (1 / 2 ^ 53) := by
    have : (gramsTotal n q w : ℚ) ^ 2 ≤ 67108864 := by
      have : (0 : ℚ) ≤ gramsTotal n q w := Nat.cast_nonneg _
      nlinarith
    exact mul_le_mul this hu hu0.le (by norm_num)
  linarith

/-- A different word scores less than 1, with a margin. -/
theorem scoreNF_ne (hu : R.u ≤ 1 / 2 ^ 53) {n : ℤ} (hn : 2 ≤ n) {q w : List Char}
    (hla : n ≤ (q.length : ℤ) + 2) (hT : gramsTotal n q w ≤ 8192) (hne : q ≠ w) :
    scoreNF R true n q w ≤ (1 + R.u) * (1 - 1 / 274877906944) := by
  have hu0 := R.u_pos
  unfold scoreNF
  rw [if_pos rfl]
  by_cases hs : Shares n q w
  · obtain ⟨h1, h2⟩ := gramsTotal_le_denom hs
    have h1' : (gramsTotal n q w : ℚ) ≤ denom n q w := by exact_mod_cast h1
    have h2' : (2 : ℚ) ≤ gramsTotal n q w := by exact_mod_cast h2
    have hTq : (gramsTotal n q w : ℚ) ≤ 8192 := by exact_mod_cast hT
    have hT53 : gramsTotal n q w ≤ 2 ^ 53 := hT.trans (by norm_num)
    have g := simNF_ne (R := R) hu hn hla hT hne
    have s0 := (commonN_nonneg n q w).trans (le_simNF (R := R) hT53)
    have hd : (0 : ℚ) < denom n q w := by linarith
    refine (fl_upper (div_nonneg s0 hd.le)).trans ?_
    apply mul_le_mul_of_nonneg_left _ (by linarith)
    rw [div_le_iff₀ hd]
    refine le_trans ?_ (mul_le_mul_of_nonneg_left h1' (by norm_num))
    linarith
  · have : simNF R n q w = 0 := by unfold simNF; rw [sharedGrams_nil hs]; rfl
    rw [this, zero_div, fl_zero]
    apply mul_nonneg (by linarith) (by norm_num)

theorem score_ne (hu : R.u ≤ 1 / 2 ^ 53) {ns : List ℤ} {q w : List Char} (hN : ns.length ≤ 8192)
    (hS : (ns.length : ℕ∞) ≤ R.sumMax) (hn2 : ∀ n ∈ ns, 2 ≤ n ∧ n ≤ (q.length : ℤ) + 2) (hT : ∀ n ∈ ns, gramsTotal n q w ≤ 8192)
    (hne : q ≠ w) : mean1F R (scoreVecF R ns true q w) < 1 := by
  have hu0 := R.u_pos
  have hu' := R.u_lt
  have h0 : ∀ n ∈ ns, 0 ≤ scoreNF R true n q w :=
    fun n hn => scoreNF_nonneg ((hT n hn).trans (by norm_num))
  have hv : Floats R (scoreVecF R ns true q w) :=
    scoreVecF_floats true (fun n hn => (hT n hn).trans (by norm_num))
  have h1 := (mean1F_bounds (R := R) hv (by simpa [scoreVecF] using hS)).2
  have h2 : mean1 (scoreVecF R ns true q w) ≤ (1 + R.u) * (1 - 1 / 274877906944) := by
    unfold mean1
    rcases Nat.eq_zero_or_pos ns.length with hz | hz
    · rw [List.length_eq_zero_iff] at hz
      subst hz
      simp only [scoreVecF, List.map_nil, List.sum_nil, zero_div]
      apply mul_nonneg (by linarith) (by norm_num)
    · unfold scoreVecF
      rw [List.length_map, div_le_iff₀ (by exact_mod_cast hz)]
      have := List.sum_le_card_nsmul (ns.map (fun n => scoreNF R true n q w))
        ((1 + R.u) * (1 - 1 / 274877906944)) (by
          intro x hx
          obtain ⟨n, hn, rfl⟩ := List.mem_map.1 hx
          exact scoreNF_ne hu (hn2 n hn).1 (hn2 n hn).2 (hT n hn) hne)
      rw [List.length_map, nsmul_eq_mul] at this
      linarith
  have hlen : (scoreVecF R ns true q w).length = ns.length := by simp [scoreVecF]
  rw [hlen] at h1
  have hp := pow_mul_pow_le_one (R := R) (ns.length + 2)
  have hb := one_sub_pow (R := R) (ns.length + 2)
  have hM : ((ns.length + 2 : ℕ) : ℚ) * R.u ≤ 8194 * (1 / 2 ^ 53) :=
    mul_le_mul (by exact_mod_cast (by omega : ns.length + 2 ≤ 8194)) hu hu0.le (by norm_num)
  have hc : (1 - 1 / 274877906944 : ℚ) < (1 - R.u) ^ (ns.length + 2) := by
    refine lt_of_lt_of_le ?_ hb
    refine lt_of_lt_of_le ?_ (sub_le_sub_left hM 1)
    norm_num
  have hA : 0 < (1 + R.u) ^ (ns.length + 2) := pow_pos (by linarith) _
  calc mean1F R (scoreVecF R ns true q w)
      ≤ (1 + R.u) ^ (ns.length + 1) * ((1 + R.u) * (1 - 1 / 274877906944)) :=
        h1.trans (mul_le_mul_of_nonneg_left h2 (pow_nonneg (by linarith) _))
    _ = (1 + R.u) ^ (ns.length + 2) * (1 - 1 / 274877906944) := by ring
    _ < (1 + R.u) ^ (ns.length + 2) * (1 - R.u) ^ (ns.length + 2) := mul_lt_mul_of_pos_left hc hA
    _ ≤ 1 := by rw [mul_comm]; exact hp

theorem scoreNF_self {n : ℤ} (hn : 2 ≤ n) {q : List Char} (hla : n ≤ (q.length : ℤ) + 2)
    (hl : q.length + q.length + 2 ≤ 2 ^ 53) : scoreNF R true n q q = 1 := by
  unfold scoreNF
  rw [if_pos rfl, simNF_eq_simF hn]
  have hc : (count n.toNat q : ℤ) = (q.length : ℤ) + 3 - n := by rw [count_eq]; omega
  rw [simF_self _ _ (by rw [count_eq]; omega)]
  have hd : (denom n q q : ℚ) = 2 * count n.toNat q := by
    have : denom n q q = 2 * (count n.toNat q : ℤ) := by
      unfold denom; rw [if_pos (by omega), hc]; ring
    rw [this]; push_cast; ring
  have hpos : (0 : ℚ) < count n.toNat q := by
    have : 0 < count n.toNat q := by omega
    exact_mod_cast this
  rw [hd, div_self (by linarith)]
  exact nat_fl_one R

/-- C129. Looking up a stored word with floats returns it first with scores (1.0, 1.0), and no other
word gets a score of 1.0: normalised, `n`s of at least 2 and small enough for the word, and together
at most 8190 characters. -/
theorem C129_float_exact_match (hcf : ∀ w, cf (cf w) = cf w) (hu : R.u ≤ 1 / 2 ^ 53)
    {stF : WL} (hr : ReachableF R cf stF) {w : List Char} {k : ℤ} (hk : 0 < k)
    (hmem : stF.fold cf w ∈ stF.wordList) (hw : w ≠ []) (hne : stF.nList ≠ [])
    (hn2 : ∀ n ∈ stF.nList, 2 ≤ n ∧ n < (((stF.fold cf w).length : ℕ) : ℤ) + 2)
    (hfil : stF.filterN ≠ 0 → gramsOf stF.filterN (stF.fold cf w) ≠ [])
    (hden : ∀ v ∈ stF.wordList, ∀ n ∈ stF.nList, denom n (stF.fold cf w) v ≠ 0)
    (hN : stF.nList.length ≤ 8192) (hS : (stF.nList.length : ℕ∞) ≤ R.sumMax)
    (hl : ∀ v ∈ stF.wordList, (stF.fold cf w).length + v.length ≤ 8190) :
    ∃ rest, lookupF R (mean1F R) cf stF (.str w) (.int k) true =
        .ok ((stF.fold cf w, toLex (1, 1)) :: rest) ∧
      ∀ r ∈ rest, r.1 ≠ stF.fold cf w ∧ (ofLex r.2).1 < 1 := by
  obtain ⟨st, hst, hR⟩ := hr.rounded
  have hi := hst.inv hcf
  have hq : Clean (stF.fold cf w) := (hi.words _ (by rw [← hR.eqs.2.1]; exact hmem)).1
  have hlen : ∀ n ∈ stF.nList, (gramsOf n (stF.fold cf w)).length =
      ((((stF.fold cf w).length : ℕ) : ℤ) + 3 - n).toNat := by
    intro n hn
    have := hn2 n hn
    rw [length_gramsOf, if_pos (by omega)]
    unfold numGrams
    rw [if_pos (by omega)]
    congr 1
  obtain ⟨res, hres, hb⟩ := C127_float_lookup_best_normalized hcf hu hr hw hk hq
    (fun n hn => (hn2 n hn).1) (fun n hn => by
      rw [hlen n hn]
      have := hn2 n hn
      omega) hden hN hS hl
  set q := stF.fold cf w with hqd
  have hlq := hl q hmem
  have hself : ∀ n ∈ stF.nList, scoreNF R true n q q = 1 := fun n hn =>
    scoreNF_self (hn2 n hn).1 (by have := hn2 n hn; omega) (by omega)
  have hscore : mean1F R (scoreVecF R stF.nList true q q) = 1 := by
    have : scoreVecF R stF.nList true q q = List.replicate stF.nList.length 1 := by
      unfold scoreVecF
      rw [List.map_eq_replicate_iff]
      exact hself
    rw [this, mean1F_replicate_one (by simpa using hne) (by omega) hS]
  have hother : ∀ v ∈ stF.wordList, q ≠ v → mean1F R (scoreVecF R stF.nList true q v) < 1 := by
    intro v hv hne
    apply score_ne hu hN hS (fun n hn => ⟨(hn2 n hn).1, by have := hn2 n hn; omega⟩) _ hne
    intro n _
    have := gramsTotal_le n q v
    have := hl v hv
    omega
  have hel : Eligible stF.nList stF.filterN q q := by
    refine ⟨fun h => ?_, ?_⟩
    · obtain ⟨g, hg⟩ := List.exists_mem_of_ne_nil _ (hfil h)
      exact ⟨g, hg, hg⟩
    · obtain ⟨n, hn⟩ := List.exists_mem_of_ne_nil _ hne
      refine ⟨n, hn, ?_⟩
      have hpos : 0 < (gramsOf n q).length := by
        rw [hlen n hn]
        have := hn2 n hn
        omega
      obtain ⟨g, hg⟩ := List.exists_mem_of_ne_nil _ (List.ne_nil_of_length_pos hpos)
      exact ⟨g, hg, hg⟩
  have hsec : nmdF R (.str q) (.str q) (.int 2) true true = .ok 1 := by
    rw [C125_float_score_is_nmd hq hq (le_refl 2) true (fun _ => by unfold denom; split <;> omega)]
    congr 1
    obtain ⟨n, hn⟩ := List.exists_mem_of_ne_nil _ hne
    exact scoreNF_self (le_refl 2) (by have := hn2 n hn; omega) (by omega)
  have hpos : 0 < res.length := by
    rw [hb.length]
    have : 0 < (eligibleWords stF.nList stF.filterN q stF.wordList).length :=
      List.length_pos_of_mem (mem_eligibleWords.2 ⟨hmem, hel⟩)
    omega
  have hin : q ∈ res.map Prod.fst := by
    by_contra hn
    obtain ⟨r, hr⟩ := List.exists_mem_of_ne_nil _ (List.ne_nil_of_length_pos hpos)
    have h1 := hb.best q hmem hel hn r hr
    rw [hscore] at h1
    have hrq : q ≠ r.1 := by
      rintro he
      exact hn (he ▸ List.mem_map_of_mem hr)
    have h2 := hother r.1 (hb.scores r hr).1 hrq
    rw [← (hb.scores r hr).2.2.1] at h2
    linarith
  cases res with
  | nil => simp at hpos
  | cons r rest =>
    have hr1 : r.1 = q := by
      by_contra hrq
      obtain ⟨r', hr', he⟩ := List.mem_map.1 hin
      have hr'' : r' ∈ rest := by
        rcases List.mem_cons.1 hr' with rfl | h
        · exact absurd he hrq
        · exact h
      have hle := (List.pairwise_cons.1 hb.sorted).1 r' hr''
      have h1 := (hb.scores r' hr').2.2.1
      rw [he, hscore] at h1
      have h2 := hother r.1 (hb.scores r (by simp)).1 (fun h => hrq h.symm)
      rw [← (hb.scores r (by simp)).2.2.1] at h2
      rcases (Prod.Lex.le_iff (x := r'.2) (y := r.2)).1 hle with h' | h'
      · rw [h1] at h'; linarith
      · rw [h1] at h'; linarith [h'.1]
    have hr2 : r = (q, toLex (1, 1)) := by
      obtain ⟨_, _, h3, h4⟩ := hb.scores r (by simp)
      rw [hr1, hscore] at h3
      rw [hr1, hsec] at h4
      injection h4 with h4
      apply Prod.ext hr1
      show r.2 = toLex (1, 1)
      have : (ofLex r.2) = (1, 1) := Prod.ext h3 h4.symm
      rw [← this]; rfl
    refine ⟨rest, by rw [hres, hr2], ?_⟩
    intro r' hr'
    have hne' : r'.1 ≠ q := by
      intro he
      have := hb.nodup
      rw [List.map_cons, List.nodup_cons] at this
      exact this.1 (by rw [hr1, ← he]; exact List.mem_map_of_mem hr')
    refine ⟨hne', ?_⟩
    rw [(hb.scores r' (by simp [hr'])).2.2.1]
    exact hother r'.1 (hb.scores r' (by simp [hr'])).1 (fun h => hne' h.symm)

example : plain (lookupF binary64 (mean1F binary64) id demoF (.str "bandana".toList) (.int 2) true) =
      .ok [("bandana", 1, 1),
        ("banana", 6308338818705047 / 9007199254740992, 3559988276873821 / 4503599627370496)] ∧
    "bandana".toList ∈ demoF.wordList := by
  refine ⟨?_, ?_⟩ <;> decide +kernel

/-! ### Distance from the exact scores -/

theorem scoreNF_err {n : ℤ} {q w : List Char} {T : ℕ} (hTd : gramsTotal n q w ≤ T) (hT : T ≤ 2 ^ 53)
    (hTu : (T : ℚ) * R.u ≤ 1 / 2) :
    |scoreNF R true n q w - scoreN true n q w| ≤ (4 * (T : ℚ) + 1) * R.u := by
  have hu := R.u_pos
  have hTq : (gramsTotal n q w : ℚ) ≤ T := by exact_mod_cast hTd
  have hT0 : (0 : ℚ) ≤ T := Nat.cast_nonneg _
  unfold scoreNF scoreN
  rw [if_pos rfl, if_pos rfl]
  by_cases hs : Shares n q w
  · obtain ⟨h1, h2⟩ := gramsTotal_le_denom hs
    have h1' : (gramsTotal n q w : ℚ) ≤ denom n q w := by exact_mod_cast h1
    have h2' : (2 : ℚ) ≤ gramsTotal n q w := by exact_mod_cast h2
    have hT53 := hTd.trans hT
    have e := simNF_err (R := R) hT53 (by nlinarith)
    have a := le_simNF (R := R) hT53
    have b := simNF_le (R := R) hT53
    have c := commonN_nonneg n q w
    have d := two_commonN_le n q w
    have hd : (0 : ℚ) < denom n q w := by linarith
    have := norm_err R hd (c.trans a) (by linarith) e
    refine this.trans ?_
    have hq : 4 * (gramsTotal n q w : ℚ) ^ 2 * R.u / denom n q w ≤ 4 * (T : ℚ) * R.u := by
      rw [div_le_iff₀ hd]
      have h3 : (gramsTotal n q w : ℚ) * gramsTotal n q w ≤ T * denom n q w :=
        mul_le_mul hTq h1' (by linarith) hT0
      nlinarith
    linarith
  · have : simNF R n q w = 0 := by unfold simNF; rw [sharedGrams_nil hs]; rfl
    rw [(not_shares_sums hs).2, this, zero_div, fl_zero, sub_zero, abs_zero]
    positivity

theorem mean1_err {ns : List ℤ} {f g : ℤ → ℚ} {δ : ℚ} (hδ : 0 ≤ δ)
    (h : ∀ n ∈ ns, |f n - g n| ≤ δ) : |mean1 (ns.map f) - mean1 (ns.map g)| ≤ δ := by
  unfold mean1
  rw [List.length_map, List.length_map]
  rcases Nat.eq_zero_or_pos ns.length with hz | hz
  · rw [hz]; simpa using hδ
  · have hN : (0 : ℚ) < ns.length := by exact_mod_cast hz
    rw [← sub_div, abs_div, abs_of_pos hN, div_le_iff₀ hN]
    clear hz hN
    induction ns with
    | nil => simp
    | cons n ns ih =>
      have h1 := abs_le.1 (h n (by simp))
      have h2 := abs_le.1 (ih (fun m hm => h m (by simp [hm])))
      simp only [List.map_cons, List.sum_cons, List.length_cons]
      push_cast
      rw [abs_le]
      constructor <;> linarith [h1.1, h1.2, h2.1, h2.2]

/-- C130. How far rounding can move the score of a lookup from the exact one, with `N` different
`n`s and at most `T` n-grams in query and word: at most `(4T + 2N + 3)u`. -/
theorem C130_float_score_error {ns : List ℤ} {q w : List Char} {T : ℕ}
    (hTd : q.length + w.length + 2 ≤ T) (hT : T ≤ 2 ^ 53) (hTu : (T : ℚ) * R.u ≤ 1 / 2)
    (hN : ((ns.length + 1 : ℕ) : ℚ) * R.u ≤ 1 / 2) (hS : (ns.length : ℕ∞) ≤ R.sumMax) :
    |mean1F R (scoreVecF R ns true q w) - mean1 (scoreVec ns true q w)| ≤
      (4 * (T : ℚ) + 2 * ns.length + 3) * R.u := by
  have hu := R.u_pos
  have hu' := R.u_lt
  have hg : ∀ n, gramsTotal n q w ≤ T := fun n => (gramsTotal_le n q w).trans hTd
  have hv : Floats R (scoreVecF R ns true q w) := scoreVecF_floats true (fun n _ => (hg n).trans hT)
  have hv1 : mean1 (scoreVecF R ns true q w) ≤ 1 := by
    unfold mean1
    apply div_le_one_of_le₀ _ (Nat.cast_nonneg _)
    have := List.sum_le_card_nsmul (scoreVecF R ns true q w) 1 (by
      intro x hx
      obtain ⟨n, _, rfl⟩ := List.mem_map.1 hx
      exact (scoreNF_bounds ((hg n).trans hT)).2.2)
    simpa using this
  have h0 := mean1_nonneg (fun x hx => (hv x hx).1)
  obtain ⟨b1, b2⟩ := mean1F_bounds (R := R) hv (by simpa [scoreVecF] using hS)
  have hlen : (scoreVecF R ns true q w).length = ns.length := by simp [scoreVecF]
  rw [hlen] at b1 b2
  have p1 := pow_upper hu.le hN
  have p2 := one_sub_pow (R := R) (ns.length + 1)
  have e := mean1_err (ns := ns) (f := fun n => scoreNF R true n q w)
    (g := fun n => scoreN true n q w) (δ := (4 * (T : ℚ) + 1) * R.u) (by positivity)
    (fun n _ => scoreNF_err (hg n) hT hTu)
  have e' : |mean1 (scoreVecF R ns true q w) - mean1 (scoreVec ns true q w)| ≤
    (4 * (T : ℚ) + 1) * R.u := e
  set x := mean1 (scoreVecF R ns true q w)
  set y := mean1F R (scoreVecF R ns true q w)
  have hM : 0 ≤ ((ns.length + 1 : ℕ) : ℚ) * R.u := by positivity
  have c1 : y ≤ x + 2 * ((ns.length + 1 : ℕ) : ℚ) * R.u := by
    have := mul_le_mul_of_nonneg_right p1 h0
    nlinarith
  have c2 : x - ((ns.length + 1 : ℕ) : ℚ) * R.u ≤ y := by
    have := mul_le_mul_of_nonneg_right p2 h0
    nlinarith
  have e1 := abs_le.1 e'
  push_cast at c1 c2 hM
  rw [abs_le]
  constructor <;> linarith [e1.1, e1.2]

example : mean1F binary64 (scoreVecF binary64 [2, 3] true "bananas".toList "banana".toList) =
      427780101967953 / 562949953421312 ∧
    mean1 (scoreVec [2, 3] true "bananas".toList "banana".toList) = 1383 / 1820 := by
  refine ⟨?_, ?_⟩ <;> decide +kernel

end Fp
end Verif
