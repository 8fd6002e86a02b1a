import Verif.Fp.ScanLemmas

/-!
# Properties C230–C232: the exact result of a lookup with floats, ties included
-/

namespace Verif
namespace Fp

open EmdSpec GramSpec IndexSpec

variable {R : Rounding} {cf : List Char → List Char} {S : Type} [LinearOrder S]

/-- The second score reported by a lookup is what `ngram_movers_distance` returns. -/
theorem bigramSimF_stored (hcf : ∀ w, cf (cf w) = cf w) {st : WL} (hr : ReachableF R cf st)
    {q : List Char} (hq : Clean q) (normalize : Bool) {v : List Char} (hv : v ∈ st.wordList) :
    nmdF R (.str q) (.str v) (.int 2) true normalize = .ok (bigramSimF R normalize q v) := by
  obtain ⟨se, hse, hR⟩ := hr.rounded
  rw [hR.eqs.2.1] at hv
  exact bigramSimF_ok hq ((hse.inv hcf).words v hv).1 normalize

/-- Pruned words are worse than those that set the threshold, without normalisation. -/
theorem scan_prune {st : WL} {agg : List ℚ → S} (hagg : MonotoneAggF R st.nList.length agg) {w : List Char}
    (hl : ∀ v ∈ st.wordList, (st.fold cf w).length + v.length + 2 ≤ 2 ^ 53) (t : S) :
    ∀ x ∈ eligibleWords st.nList st.filterN (st.fold cf w) st.wordList,
    ∀ y ∈ eligibleWords st.nList st.filterN (st.fold cf w) st.wordList,
      agg ((lowerVecF R st.nList false (st.fold cf w) x).map (fun x => R.fl (x * 2))) < t →
      t ≤ agg (lowerVecF R st.nList false (st.fold cf w) y) →
      agg (scoreVecF R st.nList false (st.fold cf w) x) <
        agg (scoreVecF R st.nList false (st.fold cf w) y) := by
  have hT : ∀ v ∈ st.wordList, ∀ n ∈ st.nList, gramsTotal n (st.fold cf w) v ≤ 2 ^ 53 :=
    fun v hv n _ => (gramsTotal_le n _ v).trans (hl v hv)
  intro x hx y hy h1 h2
  exact lt_of_le_of_lt (lower_two_score hagg (hT x (mem_eligibleWords.1 hx).1))
    (lt_of_lt_of_le h1 (h2.trans (lower_le_score hagg (hT y (mem_eligibleWords.1 hy).1))))

/-- Pruned words are worse than those that set the threshold, with normalisation. -/
theorem scan_prune_normalized (hcf : ∀ w, cf (cf w) = cf w) (hu : R.u ≤ 1 / 2 ^ 53)
    {st : WL} (hr : ReachableF R cf st) {w : List Char}
    (hq : Clean (st.fold cf w)) (hn2 : ∀ n ∈ st.nList, 2 ≤ n)
    (hN : st.nList.length ≤ 8192) (hS : (st.nList.length : ℕ∞) ≤ R.sumMax)
    (hl : ∀ v ∈ st.wordList, (st.fold cf w).length + v.length ≤ 8190) (t : ℚ) :
    ∀ x ∈ eligibleWords st.nList st.filterN (st.fold cf w) st.wordList,
    ∀ y ∈ eligibleWords st.nList st.filterN (st.fold cf w) st.wordList,
      mean1F R ((lowerVecF R st.nList true (st.fold cf w) x).map (fun x => R.fl (x * 2))) < t →
      t ≤ mean1F R (lowerVecF R st.nList true (st.fold cf w) y) →
      mean1F R (scoreVecF R st.nList true (st.fold cf w) x) <
        mean1F R (scoreVecF R st.nList true (st.fold cf w) y) := by
  have hclean : ∀ v ∈ st.wordList, Clean v := by
    obtain ⟨se, hse, hR⟩ := hr.rounded
    rw [hR.eqs.2.1]
    exact fun v hv => ((hse.inv hcf).words v hv).1
  have hT8 : ∀ v ∈ st.wordList, ∀ n ∈ st.nList, gramsTotal n (st.fold cf w) v ≤ 8192 := by
    intro v hv n _
    have := gramsTotal_le n (st.fold cf w) v
    have := hl v hv
    omega
  have hT : ∀ v ∈ st.wordList, ∀ n ∈ st.nList, gramsTotal n (st.fold cf w) v ≤ 2 ^ 53 :=
    fun v hv n hn => (hT8 v hv n hn).trans (by norm_num)
  intro x hx y hy h1 h2
  obtain ⟨hxw, hxe⟩ := mem_eligibleWords.1 hx
  obtain ⟨hyw, hye⟩ := mem_eligibleWords.1 hy
  have hLe : ∀ v ∈ st.wordList, ∀ n ∈ st.nList,
      (sharedGrams n (st.fold cf w) v).length ≤ 8192 := by
    intro v hv n hn
    have a := length_sharedGrams_le n (st.fold cf w) v
    have b := hT8 v hv n hn
    unfold gramsTotal at b
    omega
  have key := pruned_le (R := R) (κ := 1 + 1 / 8192) (t := t) (by norm_num) hS (hLe x hxw)
    (hLe y hyw) (hT x hxw) (hT y hyw)
    (fun n hn => scoreNF_gap hu (hn2 n hn) hq (hclean y hyw) (hT8 y hyw n hn)) h1.le h2
  refine lt_of_lt_of_le ?_ key
  have s0 := mean_score_pos hS (hT x hxw) hxe.2
  have hc : 1 < (1 - ((4 * st.nList.length + 2 * 8192 + 9 : ℕ) : ℚ) * R.u) * (1 + 1 / 8192) := by
    have hM : ((4 * st.nList.length + 2 * 8192 + 9 : ℕ) : ℚ) ≤ 49161 := by
      exact_mod_cast (by omega : 4 * st.nList.length + 2 * 8192 + 9 ≤ 49161)
    have : ((4 * st.nList.length + 2 * 8192 + 9 : ℕ) : ℚ) * R.u ≤ 49161 * (1 / 2 ^ 53) :=
      mul_le_mul hM hu R.u_pos.le (by norm_num)
    nlinarith
  nlinarith

/-- **C230.** With floats, an unnormalised lookup returns exactly what a full scan without index,
filter tables and pruning returns: the same words, computed scores and order, ties included. -/
theorem C230_float_full_scan (hcf : ∀ w, cf (cf w) = cf w) {st : WL} (hr : ReachableF R cf st)
    {agg : List ℚ → S} (hagg : MonotoneAggF R st.nList.length agg) {w : List Char} {k : ℤ}
    (hw : w ≠ []) (hk : 0 < k) (hq : Clean (st.fold cf w))
    (hone : ∀ n ∈ st.nList, (gramsOf n (st.fold cf w)).length ≠ 1)
    (hl : ∀ v ∈ st.wordList, (st.fold cf w).length + v.length + 2 ≤ 2 ^ 53) :
    lookupF R agg cf st (.str w) (.int k) false =
      .ok ((fullScanF R agg st.nList st.filterN false st.wordList k.toNat (st.fold cf w)).map
        (fun v => (v, toLex (agg (scoreVecF R st.nList false (st.fold cf w) v),
          bigramSimF R false (st.fold cf w) v)))) ∧
    ∀ v ∈ st.wordList, nmdF R (.str (st.fold cf w)) (.str v) (.int 2) true false =
      .ok (bigramSimF R false (st.fold cf w) v) := by
  refine ⟨?_, fun v hv => bigramSimF_stored hcf hr hq false hv⟩
  obtain ⟨res, hres, _⟩ := C126_float_lookup_best hcf hr hagg hw hk hq hone hl
  have hp := scan_prune (cf := cf) (w := w) hagg hl
  obtain ⟨se, hse, hR⟩ := hr.rounded
  obtain ⟨e1, e2, e3, _⟩ := hR.eqs
  rw [e1, e2, e3] at hp ⊢
  exact lookupF_full_scan (hse.inv hcf) (hse.ordered hcf) hR hw hk rfl hq false ⟨res, hres⟩ hp

/-- **C230.** The same for normalised lookups, sizes of at least 2 and texts of at most 8190 characters
together. -/
theorem C230_float_full_scan_normalized (hcf : ∀ w, cf (cf w) = cf w) (hu : R.u ≤ 1 / 2 ^ 53)
    {st : WL} (hr : ReachableF R cf st) {w : List Char} {k : ℤ} (hw : w ≠ []) (hk : 0 < k)
    (hq : Clean (st.fold cf w)) (hn2 : ∀ n ∈ st.nList, 2 ≤ n)
    (hone : ∀ n ∈ st.nList, (gramsOf n (st.fold cf w)).length ≠ 1)
    (hden : ∀ v ∈ st.wordList, ∀ n ∈ st.nList, denom n (st.fold cf w) v ≠ 0)
    (hN : st.nList.length ≤ 8192) (hS : (st.nList.length : ℕ∞) ≤ R.sumMax)
    (hl : ∀ v ∈ st.wordList, (st.fold cf w).length + v.length ≤ 8190) :
    lookupF R (mean1F R) cf st (.str w) (.int k) true =
      .ok ((fullScanF R (mean1F R) st.nList st.filterN true st.wordList k.toNat (st.fold cf w)).map
        (fun v => (v, toLex (mean1F R (scoreVecF R st.nList true (st.fold cf w) v),
          bigramSimF R true (st.fold cf w) v)))) ∧
    ∀ v ∈ st.wordList, nmdF R (.str (st.fold cf w)) (.str v) (.int 2) true true =
      .ok (bigramSimF R true (st.fold cf w) v) := by
  refine ⟨?_, fun v hv => bigramSimF_stored hcf hr hq true hv⟩
  obtain ⟨res, hres, _⟩ := C127_float_lookup_best_normalized hcf hu hr hw hk hq hn2 hone hden hN hS hl
  have hp := scan_prune_normalized hcf hu hr hq hn2 hN hS hl
  obtain ⟨se, hse, hR⟩ := hr.rounded
  obtain ⟨e1, e2, e3, _⟩ := hR.eqs
  rw [e1, e2, e3] at hp ⊢
  exact lookupF_full_scan (hse.inv hcf) (hse.ordered hcf) hR hw hk rfl hq true ⟨res, hres⟩ hp

/-- Two words tie for the second place, bit for bit; "abcy" is met first although "zbcd" was added
before it. -/
example :
    let st := runF binary64 id { demo₀ with nList := [3] }
      [.add (.str "zbcd".toList), .add (.str "abcy".toList), .add (.str "abcd".toList)]
    discovered [3] 0 "abcd".toList st.wordList =
      ["abcy".toList, "abcd".toList, "zbcd".toList] ∧
    plain (lookupF binary64 (mean1F binary64) id st (.str "abcd".toList) (.int 3) false) =
      .ok [("abcd", 8, 10), ("abcy", 4, 6), ("zbcd", 4, 6)] ∧
    plain (lookupF binary64 (mean1F binary64) id st (.str "abcd".toList) (.int 3) true) =
      .ok [("abcd", 1, 1), ("abcy", 1 / 2, 5404319552844595 / 9007199254740992),
        ("zbcd", 1 / 2, 5404319552844595 / 9007199254740992)] := by
  refine ⟨?_, ?_, ?_⟩ <;> decide +kernel

/-! ### Only the eligible words matter -/

theorem raisesF_congr {agg : List ℚ → S} {ns : List ℤ} {filterN : ℤ} {normalize : Bool}
    {ws ws' : List (List Char)} {q : List Char} {t : S}
    (h : eligibleWords ns filterN q ws = eligibleWords ns filterN q ws') :
    RaisesF R agg ns filterN normalize ws q t ↔ RaisesF R agg ns filterN normalize ws' q t := by
  have e : ∀ ws, RaisesF R agg ns filterN normalize ws q t ↔
      (∃ n ∈ ns, (gramsOf n q).length = 1) ∨
      (normalize = true ∧ ∃ w ∈ eligibleWords ns filterN q ws,
        t ≤ agg ((lowerVecF R ns normalize q w).map (fun x => R.fl (x * 2))) ∧
          ∃ n ∈ ns, denom n q w = 0) := by
    intro ws
    unfold RaisesF
    simp only [mem_eligibleWords, and_assoc]
  rw [e, e, h]

/-- The scored words of two lists with the same eligible words. -/
theorem lookupSimilarityF_eligible {a b aF bF : WL} (hia : WLInv cf a) (hib : WLInv cf b)
    (hoa : a.Ordered) (hob : b.Ordered) (hRa : Rounded R a aF) (hRb : Rounded R b bF)
    (hn : a.nList = b.nList) (hfn : a.filterN = b.filterN) (agg : List ℚ → S) (q : List Char)
    (h : eligibleWords a.nList a.filterN q a.wordList = eligibleWords a.nList a.filterN q b.wordList)
    {k : ℕ} (hk : 1 ≤ k) (normalize : Bool) :
    (lookupSimilarityF R agg aF q k normalize = .error .zeroDivisionError ∧
      lookupSimilarityF R agg bF q k normalize = .error .zeroDivisionError) ∨
    ∃ L M : List ℕ, lookupSimilarityF R agg aF q k normalize =
        .ok (L.map (fun i => (i, agg (scoreVecF R a.nList normalize q (a.wordAt i))))) ∧
      lookupSimilarityF R agg bF q k normalize =
        .ok (M.map (fun i => (i, agg (scoreVecF R b.nList normalize q (b.wordAt i))))) ∧
      (∀ i ∈ L, a.wordList[i]? = some (a.wordAt i)) ∧
      (∀ i ∈ M, b.wordList[i]? = some (b.wordAt i)) ∧ L.map a.wordAt = M.map b.wordAt := by
  have hd := discovered_congr h
  have hA := lookupSimilarityF_exact hia hoa hRa agg q hk normalize
  have hB := lookupSimilarityF_exact hib hob hRb agg q hk normalize
  rw [← hn, ← hfn, ← h, ← hd] at hB
  rw [← hn]
  rcases hA with ⟨e1, l1⟩ | ⟨t, ht, r1, s1, _⟩
  · rcases hB with ⟨_, l2⟩ | ⟨t, ht, _⟩
    · exact Or.inr ⟨[], [], l1, l2, by simp, by simp, rfl⟩
    · rw [e1] at ht; cases ht
  · rcases hB with ⟨e2, _⟩ | ⟨t', ht', r2, s2, _⟩
    · rw [e2] at ht; cases ht
    · rw [ht] at ht'
      injection ht' with ht'
      subst ht'
      by_cases hra : RaisesF R agg a.nList a.filterN normalize a.wordList q t
      · exact Or.inl ⟨r1 hra, r2 ((raisesF_congr h).1 hra)⟩
      · obtain ⟨L, h1, h2, h3⟩ := s1 hra
        obtain ⟨M, h4, h5, h6⟩ := s2 (fun hc => hra ((raisesF_congr h).2 hc))
        exact Or.inr ⟨L, M, h1, h4, h2, h5, h3.trans h6.symm⟩

theorem checkLookup_congr {st st' : WL} (hci : st.caseInsensitive = st'.caseInsensitive)
    (word topK : PyVal) : st.checkLookup cf word topK = st'.checkLookup cf word topK := by
  have hfold : ∀ w, st.fold cf w = st'.fold cf w := by intro w; unfold WL.fold; rw [hci]
  unfold WL.checkLookup; simp only [hfold]

/-- **C231.** With floats, a lookup depends only on the words that share an n-gram with the query: two
lists with the same configuration in which these words are the same and were added in the same order
answer alike, bit for bit and exceptions included. This holds for every rounding and every aggregate. -/
theorem C231_float_only_eligible_words (hcf : ∀ w, cf (cf w) = cf w) {st st' : WL}
    (hr : ReachableF R cf st) (hr' : ReachableF R cf st') (hn : st.nList = st'.nList)
    (hfn : st.filterN = st'.filterN) (hci : st.caseInsensitive = st'.caseInsensitive)
    (agg : List ℚ → S) (word topK : PyVal) (normalize : Bool)
    (h : ∀ w, word = .str w → eligibleWords st.nList st.filterN (st.fold cf w) st.wordList =
      eligibleWords st.nList st.filterN (st.fold cf w) st'.wordList) :
    lookupF R agg cf st word topK normalize = lookupF R agg cf st' word topK normalize := by
  have hcheck := checkLookup_congr (cf := cf) hci word topK
  cases hc : st.checkLookup cf word topK with
  | error e => unfold lookupF; rw [← hcheck, hc]; rfl
  | ok p =>
    obtain ⟨q, K⟩ := p
    obtain ⟨w, k, rfl, rfl, hw, hk, hq, rfl, rfl⟩ := checkLookup_inv hc
    obtain ⟨a, ha, hRa⟩ := hr.rounded
    obtain ⟨b, hb, hRb⟩ := hr'.rounded
    obtain ⟨a1, a2, a3, _⟩ := hRa.eqs
    obtain ⟨b1, b2, b3, _⟩ := hRb.eqs
    have hf' : st'.fold cf w = st.fold cf w := by unfold WL.fold; rw [hci]
    have he := h w rfl
    rw [a1, a2, a3, b2] at he
    have hn' : a.nList = b.nList := by rw [← a1, ← b1, hn]
    have hfn' : a.filterN = b.filterN := by rw [← a3, ← b3, hfn]
    rcases lookupSimilarityF_eligible (ha.inv hcf) (hb.inv hcf) (ha.ordered hcf) (hb.ordered hcf) hRa hRb
        hn' hfn' agg (st.fold cf w) he (show 1 ≤ k.toNat by omega) normalize with
      ⟨h1, h2⟩ | ⟨L, M, h1, h2, h3, h4, h5⟩
    · unfold lookupF
      rw [← hcheck, hc]
      simp only [bind, Except.bind, h1, h2]
    · rw [lookupF_exact_pruned (ha.inv hcf) hRa hw hk rfl hq normalize h1 h3,
        lookupF_exact_pruned (hb.inv hcf) hRb hw hk hf' hq normalize h2 h4, h5, hn']

/-- **C231.** The same for `ApproxWordListV5`. -/
theorem C231_float_only_eligible_words_v5 (hcf : ∀ w, cf (cf w) = cf w) {st st' : WL}
    (hr : ReachableF R cf st) (hr' : ReachableF R cf st') (hn : st.nList = st'.nList)
    (hfn : st.filterN = st'.filterN) (hci : st.caseInsensitive = st'.caseInsensitive)
    (agg : List ℚ → ℚ) (word topK : PyVal) (invert normalize : Bool)
    (h : ∀ w, word = .str w → eligibleWords st.nList st.filterN (st.fold cf w) st.wordList =
      eligibleWords st.nList st.filterN (st.fold cf w) st'.wordList) :
    lookupV5F R agg cf st word topK invert normalize =
      lookupV5F R agg cf st' word topK invert normalize := by
  have hcheck := checkLookup_congr (cf := cf) hci word topK
  cases hc : st.checkLookup cf word topK with
  | error e => unfold lookupV5F; rw [← hcheck, hc]; rfl
  | ok p =>
    obtain ⟨q, K⟩ := p
    obtain ⟨w, k, rfl, rfl, hw, hk, hq, rfl, rfl⟩ := checkLookup_inv hc
    obtain ⟨a, ha, hRa⟩ := hr.rounded
    obtain ⟨b, hb, hRb⟩ := hr'.rounded
    obtain ⟨a1, a2, a3, _⟩ := hRa.eqs
    obtain ⟨b1, b2, b3, _⟩ := hRb.eqs
    have hf' : st'.fold cf w = st.fold cf w := by unfold WL.fold; rw [hci]
    have he := h w rfl
    rw [a1, a2, a3, b2] at he
    have hn' : a.nList = b.nList := by rw [← a1, ← b1, hn]
    have hfn' : a.filterN = b.filterN := by rw [← a3, ← b3, hfn]
    rcases lookupSimilarityF_eligible (ha.inv hcf) (hb.inv hcf) (ha.ordered hcf) (hb.ordered hcf) hRa hRb
        hn' hfn' agg (st.fold cf w) he (show 1 ≤ k.toNat by omega) normalize with
      ⟨h1, h2⟩ | ⟨L, M, h1, h2, h3, h4, h5⟩
    · unfold lookupV5F
      rw [← hcheck, hc]
      simp only [bind, Except.bind, h1, h2]
    · rw [lookupV5F_exact_pruned hRa hw hk rfl hq invert normalize h1 h3,
        lookupV5F_exact_pruned hRb hw hk hf' hq invert normalize h2 h4, h5, hn']

/-- What calls can change. -/
theorem run_config (hcf : ∀ w, cf (cf w) = cf w) {st : WL} (hr : st.Reachable cf) (ops : List WLOp) :
    (st.run cf ops).nList = st.nList ∧ (st.run cf ops).filterN = st.filterN ∧
    (st.run cf ops).caseInsensitive = st.caseInsensitive ∧
    ∃ new, (st.run cf ops).wordList = st.wordList ++ new ∧
      ∀ v ∈ new, ∃ u, WLOp.add (.str u) ∈ ops ∧ v = st.fold cf u := by
  have hr' : ∀ ops, (st.run cf ops).Reachable cf := by
    intro ops
    obtain ⟨n, cs, fn, st₀, ops₀, h0, rfl⟩ := hr
    exact ⟨n, cs, fn, st₀, ops₀ ++ ops, h0, by simp [WL.run]⟩
  induction ops using List.reverseRecOn with
  | nil => exact ⟨rfl, rfl, rfl, [], by simp [WL.run], by simp⟩
  | append_singleton ops op ih =>
    obtain ⟨i1, i2, i3, new, i4, i5⟩ := ih
    rw [run_append_singleton]
    cases op with
    | lookup _ _ _ =>
      refine ⟨i1, i2, i3, new, i4, fun v hv => ?_⟩
      obtain ⟨u, hu, e⟩ := i5 v hv
      exact ⟨u, List.mem_append_left _ hu, e⟩
    | add v =>
      have hi := (hr' ops).inv hcf
      obtain ⟨c1, c2, c3⟩ := config_addWord hcf hi v
      have hcase : ((st.run cf ops).addWord cf v).1.wordList = (st.run cf ops).wordList ∨
          ∃ u, v = .str u ∧ ((st.run cf ops).addWord cf v).1.wordList =
            (st.run cf ops).wordList ++ [st.fold cf u] := by
        rw [addWord_cases hcf hi]
        cases v with
        | int i => exact Or.inl rfl
        | other => exact Or.inl rfl
        | str u =>
          simp only
          split
          · exact Or.inl rfl
          split
          · exact Or.inl rfl
          split
          · exact Or.inl rfl
          split
          · exact Or.inl rfl
          · refine Or.inr ⟨u, rfl, ?_⟩
            rw [wordList_inserted]
            congr 2
            unfold WL.fold; rw [i3]
      have hold : ∀ x ∈ new, ∃ u, WLOp.add (.str u) ∈ ops ++ [WLOp.add v] ∧ x = st.fold cf u := by
        intro x hx
        obtain ⟨u, hu, e⟩ := i5 x hx
        exact ⟨u, List.mem_append_left _ hu, e⟩
      refine ⟨c1.trans i1, c2.trans i2, c3.trans i3, ?_⟩
      show ∃ new, ((st.run cf ops).addWord cf v).1.wordList = st.wordList ++ new ∧ _
      rcases hcase with hcase | ⟨u, rfl, hcase⟩
      · exact ⟨new, by rw [hcase, i4], hold⟩
      · refine ⟨new ++ [st.fold cf u], by rw [hcase, i4, List.append_assoc], ?_⟩
        intro x hx
        rcases List.mem_append.1 hx with hx | hx
        · exact hold x hx
        · rw [List.mem_singleton] at hx
          exact ⟨u, by simp, hx⟩

theorem reachableF_run {st : WL} (hr : ReachableF R cf st) (ops : List WLOp) :
    ReachableF R cf (runF R cf st ops) := by
  obtain ⟨n, cs, fn, st₀, ops₀, h0, rfl⟩ := hr
  exact ⟨n, cs, fn, st₀, ops₀ ++ ops, h0, by simp [runF]⟩

theorem runF_config (hcf : ∀ w, cf (cf w) = cf w) {st : WL} (hr : ReachableF R cf st)
    (ops : List WLOp) :
    (runF R cf st ops).nList = st.nList ∧ (runF R cf st ops).filterN = st.filterN ∧
    (runF R cf st ops).caseInsensitive = st.caseInsensitive ∧
    ∃ new, (runF R cf st ops).wordList = st.wordList ++ new ∧
      ∀ v ∈ new, ∃ u, WLOp.add (.str u) ∈ ops ∧ v = st.fold cf u := by
  obtain ⟨se, hse, hR⟩ := hr.rounded
  obtain ⟨c1, c2, c3, new, c4, c5⟩ := run_config hcf hse ops
  obtain ⟨e1, e2, e3, e4⟩ := hR.eqs
  obtain ⟨f1, f2, f3, f4⟩ := (runF_rounded (cf := cf) hR ops).eqs
  have hfold : ∀ u, st.fold cf u = se.fold cf u := by intro u; unfold WL.fold; rw [e4]
  refine ⟨by rw [f1, c1, e1], by rw [f3, c2, e3], by rw [f4, c3, e4], new, by rw [f2, c4, e2], ?_⟩
  intro v hv
  obtain ⟨u, hu, h⟩ := c5 v hv
  exact ⟨u, hu, by rw [hfold]; exact h⟩

/-- **C231.** With floats, adding words none of which shares an n-gram with the query does not change
the answer to the query, neither of `WordList` nor of `ApproxWordListV5`. -/
theorem C231_float_unrelated_words (hcf : ∀ w, cf (cf w) = cf w) {st : WL}
    (hr : ReachableF R cf st) (word topK : PyVal) (invert normalize : Bool) (ops : List WLOp)
    (h : ∀ w, word = .str w → ∀ v, WLOp.add (.str v) ∈ ops →
      ¬ Eligible st.nList st.filterN (st.fold cf w) (st.fold cf v)) :
    (∀ agg : List ℚ → S, lookupF R agg cf (runF R cf st ops) word topK normalize =
      lookupF R agg cf st word topK normalize) ∧
    ∀ agg : List ℚ → ℚ, lookupV5F R agg cf (runF R cf st ops) word topK invert normalize =
      lookupV5F R agg cf st word topK invert normalize := by
  obtain ⟨c1, c2, c3, new, c4, c5⟩ := runF_config hcf hr ops
  have he : ∀ w, word = .str w → eligibleWords st.nList st.filterN (st.fold cf w) st.wordList =
      eligibleWords st.nList st.filterN (st.fold cf w) (runF R cf st ops).wordList := by
    intro w hw
    rw [c4, eligibleWords, eligibleWords, List.filter_append,
      (List.filter_eq_nil_iff (l := new)).2, List.append_nil]
    intro v hv hel
    obtain ⟨u, hu, rfl⟩ := c5 v hv
    exact h w hw u hu (by simpa using hel)
  exact ⟨fun agg => (C231_float_only_eligible_words hcf hr (reachableF_run hr ops) c1.symm c2.symm
      c3.symm agg word topK normalize he).symm,
    fun agg => (C231_float_only_eligible_words_v5 hcf hr (reachableF_run hr ops) c1.symm c2.symm
      c3.symm agg word topK invert normalize he).symm⟩

example : ¬ Eligible demoF.nList demoF.filterN "bananas".toList "xyz".toList ∧
    Eligible demoF.nList demoF.filterN "bananas".toList "cabana".toList ∧
    (runF binary64 id demoF [.add (.str "xyz".toList)]).wordList ≠ demoF.wordList := by
  refine ⟨?_, ?_, ?_⟩ <;> decide +kernel

/-! ### `ApproxWordListV5` -/

theorem sortDesc_eq_self {α : Type} {key : α → S} {l : List α}
    (h : l.Pairwise (fun a b => key b ≤ key a)) : sortDesc key l = l :=
  eq_of_sorted_stable (sortDesc_pairwise key l) h (fun c => sortDesc_stable key l c)

/-- A successful call of either lookup, in terms of the words that were not pruned. -/
theorem lookups_scored (hcf : ∀ w, cf (cf w) = cf w) {st : WL} (hr : ReachableF R cf st)
    (agg : List ℚ → ℚ) {w : List Char} {k : ℤ} (hw : w ≠ []) (hk : 0 < k)
    (hq : Clean (st.fold cf w)) (normalize : Bool) :
    (lookupF R agg cf st (.str w) (.int k) normalize = .error .zeroDivisionError ∧
      ∀ invert, lookupV5F R agg cf st (.str w) (.int k) invert normalize =
        .error .zeroDivisionError) ∨
    ∃ W : List (List Char), (∀ v ∈ W, v ∈ st.wordList ∧ Eligible st.nList st.filterN (st.fold cf w) v) ∧
      W.Nodup ∧
      lookupF R agg cf st (.str w) (.int k) normalize =
        .ok ((best (rankPairF R agg st.nList normalize (st.fold cf w)) k.toNat
          (best (fun v => agg (scoreVecF R st.nList normalize (st.fold cf w) v)) (2 * k.toNat) W)).map
            (fun v => (v, rankPairF R agg st.nList normalize (st.fold cf w) v))) ∧
      ∀ invert, lookupV5F R agg cf st (.str w) (.int k) invert normalize =
        .ok (sortDesc Prod.snd
          ((best (fun v => agg (scoreVecF R st.nList normalize (st.fold cf w) v)) (2 * k.toNat) W).map
            (fun v => (v, if invert then agg (scoreVecF R st.nList normalize (st.fold cf w) v)
              else R.fl ((if normalize then 1 else 0) -
                agg (scoreVecF R st.nList normalize (st.fold cf w) v)))))) := by
  obtain ⟨se, hse, hR⟩ := hr.rounded
  obtain ⟨e1, e2, e3, _⟩ := hR.eqs
  have hi := hse.inv hcf
  have hdperm := discovered_perm se.nList se.filterN (st.fold cf w) hi.nodupW
  rcases lookupSimilarityF_exact hi (hse.ordered hcf) hR agg (st.fold cf w)
      (show 1 ≤ k.toNat by omega) normalize with ⟨he, hl⟩ | ⟨t, _, r, s, hmany⟩
  · right
    refine ⟨[], by simp, List.nodup_nil, ?_, fun invert => ?_⟩
    · rw [lookupF_exact_pruned hi hR (L := []) hw hk rfl hq normalize hl (by simp), e1]; rfl
    · rw [lookupV5F_exact_pruned hR (L := []) hw hk rfl hq invert normalize hl (by simp), e1]; rfl
  · by_cases hra : RaisesF R agg se.nList se.filterN normalize se.wordList (st.fold cf w) t
    · left
      refine ⟨?_, fun invert => ?_⟩
      · unfold lookupF
        rw [checkLookup_ok hw hk rfl hq]
        simp only [bind, Except.bind, r hra]
      · unfold lookupV5F
        rw [checkLookup_ok hw hk rfl hq]
        simp only [bind, Except.bind, r hra]
    · right
      obtain ⟨L, h1, h2, h3⟩ := s hra
      refine ⟨L.map se.wordAt, ?_, ?_, ?_, fun invert => ?_⟩
      · intro v hv
        rw [h3] at hv
        rw [e1, e2, e3]
        exact mem_eligibleWords.1 (hdperm.mem_iff.1 (List.mem_of_mem_filter hv))
      · rw [h3]; exact (nodup_discovered _ _ _ _).filter _
      · rw [lookupF_exact_pruned hi hR hw hk rfl hq normalize h1 h2, e1]
      · rw [lookupV5F_exact_pruned hR hw hk rfl hq invert normalize h1 h2, e1]

/-- **C232.** With floats, `WordList` returns the `top_k` best, by the pair of scores, of the words that
`ApproxWordListV5` returns with `invert=True`; the first score is the one that V5 reports. Either both
raise or none. This holds for every rounding and aggregate. -/
theorem C232_float_v6_refines_v5 (hcf : ∀ w, cf (cf w) = cf w) {st : WL} (hr : ReachableF R cf st)
    (agg : List ℚ → ℚ) (word topK : PyVal) (normalize : Bool) :
    (∀ e, lookupF R agg cf st word topK normalize = .error e ↔
      lookupV5F R agg cf st word topK true normalize = .error e) ∧
    ∀ r5, lookupV5F R agg cf st word topK true normalize = .ok r5 →
      ∃ w k, word = .str w ∧ topK = .int k ∧ 0 < k ∧
      r5.length ≤ 2 * k.toNat ∧ (r5.map Prod.fst).Nodup ∧ r5.Pairwise (fun a b => b.2 ≤ a.2) ∧
      (∀ r ∈ r5, r.1 ∈ st.wordList ∧ Eligible st.nList st.filterN (st.fold cf w) r.1 ∧
        r.2 = agg (scoreVecF R st.nList normalize (st.fold cf w) r.1)) ∧
      lookupF R agg cf st word topK normalize =
        .ok (best Prod.snd k.toNat (r5.map (fun r =>
          (r.1, (toLex (r.2, bigramSimF R normalize (st.fold cf w) r.1) : ℚ ×ₗ ℚ))))) := by
  cases hc : st.checkLookup cf word topK with
  | error e =>
    have h6 : lookupF R agg cf st word topK normalize = .error e := by
      unfold lookupF; rw [hc]; rfl
    have h5 : lookupV5F R agg cf st word topK true normalize = .error e := by
      unfold lookupV5F; rw [hc]; rfl
    rw [h5, h6]
    exact ⟨fun e' => ⟨fun h => by injection h with h; rw [h], fun h => by injection h with h; rw [h]⟩,
      fun r5 h => by cases h⟩
  | ok p =>
    obtain ⟨q, K⟩ := p
    obtain ⟨w, k, rfl, rfl, hw, hk, hq, rfl, rfl⟩ := checkLookup_inv hc
    rcases lookups_scored hcf hr agg hw hk hq normalize with ⟨h6, h5⟩ | ⟨W, hW, hWn, h6, h5⟩
    · rw [h6, h5 true]
      exact ⟨fun e' => ⟨fun h => by injection h with h; rw [h], fun h => by injection h with h; rw [h]⟩,
      fun r5 h => by cases h⟩
    · rw [h6, h5 true]
      refine ⟨fun e => ⟨fun h => (by cases h), fun h => (by cases h)⟩, fun r5 h => ?_⟩
      injection h with h
      have hpw : ((best (fun v => agg (scoreVecF R st.nList normalize (st.fold cf w) v)) (2 * k.toNat)
          W).map (fun v => (v, agg (scoreVecF R st.nList normalize (st.fold cf w) v)))).Pairwise
            (fun a b => b.2 ≤ a.2) := by
        rw [List.pairwise_map, best_eq]
        exact (sortDesc_pairwise _ W).sublist (List.take_sublist _ _)
      simp only [if_true] at h
      rw [sortDesc_eq_self hpw] at h
      subst h
      refine ⟨w, k, rfl, rfl, hk, ?_, ?_, hpw, ?_, ?_⟩
      · rw [List.length_map, best_eq, List.length_take]; omega
      · rw [List.map_map, best_eq]
        simp only [Function.comp_def, List.map_id']
        exact (((sortDesc_perm _ W).nodup_iff).2 hWn).sublist (List.take_sublist _ _)
      · intro r hr'
        obtain ⟨v, hv, rfl⟩ := List.mem_map.1 hr'
        exact ⟨(hW v (mem_best hv)).1, (hW v (mem_best hv)).2, rfl⟩
      · rw [List.map_map, best_map]
        rfl

/-- **C232.** `invert=False` reports the rounded differences of the same scores, sorted by them. -/
theorem C232_float_v5_not_inverted (hcf : ∀ w, cf (cf w) = cf w) {st : WL} (hr : ReachableF R cf st)
    (agg : List ℚ → ℚ) (word topK : PyVal) (normalize : Bool) :
    lookupV5F R agg cf st word topK false normalize =
      (lookupV5F R agg cf st word topK true normalize).map (fun r5 => sortDesc Prod.snd
        (r5.map (fun r => (r.1, R.fl ((if normalize then 1 else 0) - r.2))))) := by
  cases hc : st.checkLookup cf word topK with
  | error e =>
    unfold lookupV5F; rw [hc]; rfl
  | ok p =>
    obtain ⟨q, K⟩ := p
    obtain ⟨w, k, rfl, rfl, hw, hk, hq, rfl, rfl⟩ := checkLookup_inv hc
    rcases lookups_scored hcf hr agg hw hk hq normalize with ⟨_, h5⟩ | ⟨W, _, _, _, h5⟩
    · rw [h5, h5]; rfl
    · rw [h5, h5]
      have hpw : ((best (fun v => agg (scoreVecF R st.nList normalize (st.fold cf w) v)) (2 * k.toNat)
          W).map (fun v => (v, agg (scoreVecF R st.nList normalize (st.fold cf w) v)))).Pairwise
            (fun a b => b.2 ≤ a.2) := by
        rw [List.pairwise_map, best_eq]
        exact (sortDesc_pairwise _ W).sublist (List.take_sublist _ _)
      simp only [if_true, Bool.false_eq_true, if_false, Except.map]
      rw [sortDesc_eq_self hpw, List.map_map]
      rfl

theorem best_take {α : Type} (f : α → S) {k m : ℕ} (hkm : k ≤ m) (D : List α) :
    best f k (best f m D) = best f k D ∧ (best f m D).take k = best f k D := by
  have h : (best f m D).take k = best f k D := by
    rw [best_eq, best_eq, List.take_take, Nat.min_eq_left hkm]
  refine ⟨?_, h⟩
  rw [best_eq, sortDesc_eq_self, h]
  rw [best_eq]
  exact (sortDesc_pairwise f D).sublist (List.take_sublist _ _)

/-- The beginning of a V5 lookup that returns is a full scan, if pruned words are worse than those that
set the threshold. -/
theorem lookupV5F_full_scan (hcf : ∀ w, cf (cf w) = cf w) {st : WL} (hr : ReachableF R cf st)
    {agg : List ℚ → ℚ} {w : List Char} {k : ℤ} (hw : w ≠ []) (hk : 0 < k)
    (hq : Clean (st.fold cf w)) (normalize : Bool)
    (hok : ∃ res, lookupF R agg cf st (.str w) (.int k) normalize = .ok res)
    (hprune : ∀ (t : ℚ), ∀ x ∈ eligibleWords st.nList st.filterN (st.fold cf w) st.wordList,
      ∀ y ∈ eligibleWords st.nList st.filterN (st.fold cf w) st.wordList,
      agg ((lowerVecF R st.nList normalize (st.fold cf w) x).map (fun x => R.fl (x * 2))) < t →
      t ≤ agg (lowerVecF R st.nList normalize (st.fold cf w) y) →
      agg (scoreVecF R st.nList normalize (st.fold cf w) x) <
        agg (scoreVecF R st.nList normalize (st.fold cf w) y)) :
    ∃ r5, lookupV5F R agg cf st (.str w) (.int k) true normalize = .ok r5 ∧
      r5.take k.toNat =
        (best (fun v => agg (scoreVecF R st.nList normalize (st.fold cf w) v)) k.toNat
          (discovered st.nList st.filterN (st.fold cf w) st.wordList)).map
            (fun v => (v, agg (scoreVecF R st.nList normalize (st.fold cf w) v))) := by
  obtain ⟨se, hse, hR⟩ := hr.rounded
  obtain ⟨e1, e2, e3, _⟩ := hR.eqs
  rw [e1, e2, e3] at hprune ⊢
  have hi := hse.inv hcf
  have hk' : 1 ≤ k.toNat := by omega
  have hdperm := discovered_perm se.nList se.filterN (st.fold cf w) hi.nodupW
  have hsorted : ∀ W : List (List Char), sortDesc Prod.snd
      ((best (fun v => agg (scoreVecF R se.nList normalize (st.fold cf w) v)) (2 * k.toNat) W).map
        (fun v => (v, agg (scoreVecF R se.nList normalize (st.fold cf w) v)))) =
      (best (fun v => agg (scoreVecF R se.nList normalize (st.fold cf w) v)) (2 * k.toNat) W).map
        (fun v => (v, agg (scoreVecF R se.nList normalize (st.fold cf w) v))) := by
    intro W
    apply sortDesc_eq_self
    rw [List.pairwise_map, best_eq]
    exact (sortDesc_pairwise _ W).sublist (List.take_sublist _ _)
  rcases lookupSimilarityF_exact hi (hse.ordered hcf) hR agg (st.fold cf w) hk' normalize with
    ⟨he, hl⟩ | ⟨t, _, hra, hs, hmany⟩
  · refine ⟨_, lookupV5F_exact_pruned hR (L := []) hw hk rfl hq true normalize hl (by simp), ?_⟩
    have hd : discovered se.nList se.filterN (st.fold cf w) se.wordList = [] := by
      rw [← List.length_eq_zero_iff, hdperm.length_eq, he]; rfl
    rw [hd]
    simp [best_eq, sortDesc]
  · by_cases hra' : RaisesF R agg se.nList se.filterN normalize se.wordList (st.fold cf w) t
    · obtain ⟨res, hres⟩ := hok
      unfold lookupF at hres
      rw [checkLookup_ok hw hk rfl hq] at hres
      simp only [bind, Except.bind, hra hra'] at hres
      cases hres
    · obtain ⟨L, h1, h2, h3⟩ := hs hra'
      refine ⟨_, lookupV5F_exact_pruned hR hw hk rfl hq true normalize h1 h2, ?_⟩
      simp only [if_true]
      rw [hsorted, ← List.map_take, h3, (best_take _ (by omega) _).2,
        ← (best_take _ (show k.toNat ≤ 2 * k.toNat by omega) (List.filter _ _)).1,
        best_best_kept (fun a b h => le_of_lt h) hk' (by omega) _ _
          (fun w' => decide (t ≤ agg (lowerVecF R se.nList normalize (st.fold cf w) w'))) hmany,
        (best_take _ (by omega) _).1]
      intro x hx hPx y hy hQy
      exact hprune t x (hdperm.mem_iff.1 hx) y (hdperm.mem_iff.1 hy) (by simpa using hPx)
        (by simpa using hQy)

/-- **C232.** With floats, the first `top_k` words of an unnormalised V5 lookup with `invert=True` are
those of a full scan, ties included. -/
theorem C232_float_v5_full_scan (hcf : ∀ w, cf (cf w) = cf w) {st : WL} (hr : ReachableF R cf st)
    {agg : List ℚ → ℚ} (hagg : MonotoneAggF R st.nList.length agg) {w : List Char} {k : ℤ}
    (hw : w ≠ []) (hk : 0 < k) (hq : Clean (st.fold cf w))
    (hone : ∀ n ∈ st.nList, (gramsOf n (st.fold cf w)).length ≠ 1)
    (hl : ∀ v ∈ st.wordList, (st.fold cf w).length + v.length + 2 ≤ 2 ^ 53) :
    ∃ r5, lookupV5F R agg cf st (.str w) (.int k) true false = .ok r5 ∧
      r5.take k.toNat =
        (best (fun v => agg (scoreVecF R st.nList false (st.fold cf w) v)) k.toNat
          (discovered st.nList st.filterN (st.fold cf w) st.wordList)).map
            (fun v => (v, agg (scoreVecF R st.nList false (st.fold cf w) v))) := by
  obtain ⟨res, hres, _⟩ := C126_float_lookup_best hcf hr hagg hw hk hq hone hl
  exact lookupV5F_full_scan hcf hr hw hk hq false ⟨res, hres⟩
    (scan_prune hagg hl)

/-- **C232.** The same for normalised lookups under the conditions of C230. -/
theorem C232_float_v5_full_scan_normalized (hcf : ∀ w, cf (cf w) = cf w) (hu : R.u ≤ 1 / 2 ^ 53)
    {st : WL} (hr : ReachableF R cf st) {w : List Char} {k : ℤ} (hw : w ≠ []) (hk : 0 < k)
    (hq : Clean (st.fold cf w)) (hn2 : ∀ n ∈ st.nList, 2 ≤ n)
    (hone : ∀ n ∈ st.nList, (gramsOf n (st.fold cf w)).length ≠ 1)
    (hden : ∀ v ∈ st.wordList, ∀ n ∈ st.nList, denom n (st.fold cf w) v ≠ 0)
    (hN : st.nList.length ≤ 8192) (hS : (st.nList.length : ℕ∞) ≤ R.sumMax)
    (hl : ∀ v ∈ st.wordList, (st.fold cf w).length + v.length ≤ 8190) :
    ∃ r5, lookupV5F R (mean1F R) cf st (.str w) (.int k) true true = .ok r5 ∧
      r5.take k.toNat =
        (best (fun v => mean1F R (scoreVecF R st.nList true (st.fold cf w) v)) k.toNat
          (discovered st.nList st.filterN (st.fold cf w) st.wordList)).map
            (fun v => (v, mean1F R (scoreVecF R st.nList true (st.fold cf w) v))) := by
  obtain ⟨res, hres, _⟩ := C127_float_lookup_best_normalized hcf hu hr hw hk hq hn2 hone hden hN hS hl
  exact lookupV5F_full_scan hcf hr hw hk hq true ⟨res, hres⟩
    (scan_prune_normalized hcf hu hr hq hn2 hN hS hl)

/-- V5 returns up to `2 top_k` words, `WordList` the best `top_k` of them. With `invert=False` the
smallest similarity comes first. -/
example :
    lookupV5F binary64 (mean1F binary64) id demoF (.str "bananas".toList) (.int 1) true true =
      .ok [("banana".toList, 427780101967953 / 562949953421312),
        ("bandana".toList, 576353523740867 / 1125899906842624)] ∧
    plain (lookupF binary64 (mean1F binary64) id demoF (.str "bananas".toList) (.int 1) true) =
      .ok [("banana", 427780101967953 / 562949953421312, 6991302278679913 / 9007199254740992)] ∧
    (lookupV5F binary64 (mean1F binary64) id demoF (.str "bananas".toList) (.int 1) false true).map
      (List.map Prod.fst) = .ok ["bandana".toList, "banana".toList] := by
  refine ⟨?_, ?_, ?_⟩ <;> decide +kernel

end Fp
end Verif
