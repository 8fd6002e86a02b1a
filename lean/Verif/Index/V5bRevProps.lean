import Verif.Index.RevProps
import Verif.Index.V5bSymProps

/-!
# Property C243: ApproxWordListV5b and V3 with reversed words
-/

namespace Verif

open GramSpec IndexSpec

variable {cf : List Char → List Char} {S : Type} [LinearOrder S]

/-- The scores of the best words depend only on the scores. -/
theorem best_scores_congr {α β : Type} {key : α → S} {key' : β → S} {l : List α} {l' : List β}
    (h : (l.map key).Perm (l'.map key')) (k : ℕ) :
    (best key k l).map key = (best key' k l').map key' := by
  have e1 := best_map key (id : S → S) k l
  have e2 := best_map key' (id : S → S) k l'
  simp only [id_eq] at e1 e2
  rw [← e1, ← e2]
  unfold best
  have : (fun a b : S => id b ≤ id a) = fun a b => b ≤ a := rfl
  congr 1
  refine List.Perm.eq_of_pairwise (le := fun a b : S => b ≤ a) ?_ ?_ ?_ ?_
  · intro a b _ _ h1 h2; exact le_antisymm h2 h1
  · exact List.pairwise_insertionSort _ _
  · exact List.pairwise_insertionSort _ _
  · exact ((List.perm_insertionSort _ _).trans h).trans (List.perm_insertionSort _ _).symm

theorem mem_discovered_iff {ns : List ℤ} {fn : ℤ} {q w : List Char} {words : List (List Char)} :
    w ∈ discovered ns fn q words ↔ w ∈ words ∧ Eligible ns fn q w := by
  unfold discovered eligibleWords
  simp only [mem_firsts, List.mem_flatMap, List.mem_filter, decide_eq_true_eq]
  constructor
  · rintro ⟨n, hn, g, hg, hw, hgw⟩; exact hw
  · rintro ⟨hw, he⟩
    obtain ⟨n, hn, g, h1, h2⟩ := he.2
    exact ⟨n, hn, g, h1, ⟨hw, he⟩, h2⟩

theorem perm_discovered_reverse {ns : List ℤ} {fn : ℤ} {q : List Char} (hq : Clean q)
    {words : List (List Char)} (hw : ∀ w ∈ words, Clean w) :
    (discovered ns fn q.reverse (words.map List.reverse)).Perm
      ((discovered ns fn q words).map List.reverse) := by
  rw [List.perm_ext_iff_of_nodup (nodup_discovered _ _ _ _)
    ((nodup_discovered _ _ _ _).map List.reverse_injective)]
  intro x
  simp only [mem_discovered_iff, List.mem_map]
  constructor
  · rintro ⟨⟨a, ha, rfl⟩, he⟩
    exact ⟨a, ⟨ha, (eligible_reverse hq (hw a ha)).mp he⟩, rfl⟩
  · rintro ⟨a, ⟨ha, he⟩, rfl⟩
    exact ⟨⟨a, ha, rfl⟩, (eligible_reverse hq (hw a ha)).mpr he⟩

/-- **C243.** With sizes of at least 2, reading all words and the query backwards changes no score of a
lookup in an `ApproxWordListV5b`, and no exception. Case folding, if used, must commute with reversal. -/
theorem C243_v5b_reverse (hcf : ∀ w, cf (cf w) = cf w) {n : NArg} {cs : Option Bool}
    {fn : Option PyVal} {st₀ : WL} (h0 : WL.v5bNew n cs fn = .ok st₀) (hn2 : ∀ n ∈ st₀.nList, 2 ≤ n)
    (hrev : cs = some false → ∀ w, cf w.reverse = (cf w).reverse)
    {agg : List ℚ → S} (hagg : MonotoneAgg agg) (vs : List PyVal) (v k : PyVal) (normalize : Bool) :
    ((st₀.v5bRun cf (vs.map (renVal List.reverse))).v5bLookup agg cf (renVal List.reverse v) k
        normalize).map (List.map Prod.snd) =
      ((st₀.v5bRun cf vs).v5bLookup agg cf v k normalize).map (List.map Prod.snd) := by
  obtain ⟨b, fi, hb, -, h1, h2⟩ := C85_v5b_same_index hcf h0
  have hrev' : (!b) = true → ∀ w, cf w.reverse = (cf w).reverse := by
    intro h; exact hrev (by rw [hb, (by simpa using h : b = false)])
  have e : (vs.map WLOp.add).map (renWLOp List.reverse) =
      (vs.map (renVal List.reverse)).map WLOp.add := by
    rw [List.map_map, List.map_map]; rfl
  have hw1 := (run_eq hcf h1 (vs.map WLOp.add)).2
  have hw2 := (run_eq hcf h1 ((vs.map WLOp.add).map (renWLOp List.reverse))).2
  rw [newWords_reverse hrev', ← hw1, e, ← h2, ← h2] at hw2
  have hci : st₀.caseInsensitive = !b := by
    unfold WL.new at h1
    cases hm : mkNList n with
    | error e => rw [hm] at h1; cases h1
    | ok l =>
      rw [hm] at h1
      injection h1 with h1
      subst h1; rfl
  have hi0 : WLInv cf st₀ := WLInv.new h1
  obtain ⟨c1, c2, c3⟩ := config_run hcf hi0 (vs.map WLOp.add)
  obtain ⟨d1, d2, d3⟩ := config_run hcf hi0 ((vs.map (renVal List.reverse)).map WLOp.add)
  rw [← h2] at c1 c2 c3 d1 d2 d3
  have hr : (st₀.v5bRun cf vs).V5bReachable cf := ⟨n, cs, fn, st₀, _, h0, rfl⟩
  have hr' : (st₀.v5bRun cf (vs.map (renVal List.reverse))).V5bReachable cf :=
    ⟨n, cs, fn, st₀, _, h0, rfl⟩
  have hwords := ((hr.reachable hcf).inv hcf).words
  clear hw1 e h2
  generalize st₀.v5bRun cf vs = st at *
  generalize st₀.v5bRun cf (vs.map (renVal List.reverse)) = st' at *
  have hfold : ∀ w : List Char, st'.fold cf w.reverse = (st.fold cf w).reverse := by
    intro w
    unfold WL.fold
    rw [c3, d3, hci]
    split
    · rename_i h; exact hrev' h w
    · rfl
  cases v with
  | int i => rfl
  | other => rfl
  | str w =>
    show (st'.v5bLookup agg cf (.str w.reverse) k normalize).map _ = _
    by_cases hw : w = []
    · subst hw; rfl
    cases k with
    | str s => simp [WL.v5bLookup, hw, Except.map]
    | other => simp [WL.v5bLookup, hw, Except.map]
    | int k =>
      by_cases hk : k ≤ 0
      · simp [WL.v5bLookup, hw, hk, Except.map]
      by_cases hq0 : st.fold cf w = []
      · simp [WL.v5bLookup, hw, hk, hfold, hq0, Except.map]
      by_cases hq : Clean (st.fold cf w)
      · rw [C221_v5b_full_scan hcf hr hagg hw (by omega) hq0 hq,
          C221_v5b_full_scan hcf hr' hagg (by simpa using hw) (by omega) (by rw [hfold]; simpa using hq0)
            (by rw [hfold]; exact clean_reverse hq), hfold, d1, d2, ← c1, ← c2, hw2]
        show Except.ok _ = Except.ok _
        rw [List.map_map, List.map_map]
        congr 1
        refine best_scores_congr ?_ _
        refine ((perm_discovered_reverse hq fun x hx => (hwords x hx).1).map _).trans ?_
        rw [List.map_map]
        apply List.Perm.of_eq
        apply List.map_congr_left
        intro x hx
        simp only [Function.comp_apply]
        rw [scoreVec_reverse (fun n hn => hn2 n (c1 ▸ hn)) normalize hq
          (hwords x (mem_discovered_iff.mp hx).1).1]
      · have hc : '\x02' ∈ st.fold cf w ∨ '\x03' ∈ st.fold cf w := by
          by_contra hc
          exact hq (not_or.mp hc)
        have hw' : ¬ w.length = 0 := by simpa using hw
        have hq0' : ¬ (st.fold cf w).length = 0 := by simpa using hq0
        unfold WL.v5bLookup
        simp only [List.length_reverse, hfold, List.mem_reverse, if_neg hw', if_neg hk, if_neg hq0',
          if_pos hc]

example :
    let st := demoB₀.v5bRun id [.str "abc".toList, .str "bcd".toList]
    let st' := demoB₀.v5bRun id [.str "cba".toList, .str "dcb".toList]
    (∀ n ∈ demoB₀.nList, 2 ≤ n) ∧
    ((st.v5bLookup mean1 id (.str "abcc".toList) (.int 2) true).map List.length = .ok 2) ∧
    (st'.v5bLookup mean1 id (.str "ccba".toList) (.int 2) true).map (List.map Prod.snd) =
      (st.v5bLookup mean1 id (.str "abcc".toList) (.int 2) true).map (List.map Prod.snd) := by
  decide +kernel

/-! ### ApproxWordListV3 -/

theorem overlap3_eq {n : ℤ} (hn : 2 ≤ n) (q w : List Char) :
    overlap3 n q w = simN n q w - commonN n q w := by
  have hg : ∀ v, gramsOf n v = grams n.toNat v := fun v => by unfold gramsOf; rw [if_pos (by omega)]
  unfold overlap3 simN commonN
  rw [← hg, ← Finset.sum_sub_distrib]
  apply Finset.sum_congr rfl
  intro g _
  push_cast
  rcases le_total ((gramsOf n q).count g : ℚ) ((gramsOf n w).count g) with h | h
  · rw [max_eq_right h, min_eq_left h]; ring
  · rw [max_eq_left h, min_eq_right h]; ring

theorem scoreVec3_reverse {ns : List ℤ} (hn : ∀ n ∈ ns, 2 ≤ n) {q w : List Char}
    (hq : Clean q) (hw : Clean w) : scoreVec3 ns q.reverse w.reverse = scoreVec3 ns q w := by
  unfold scoreVec3
  apply List.map_congr_left
  intro n h
  unfold score3
  rw [overlap3_eq (hn n h), overlap3_eq (hn n h), commonN_reverse n hq hw, simN_eq_located (hn n h),
    simN_eq_located (hn n h), locSim_reverse hq hw, List.length_reverse]

theorem matches3_iff_shares {ns : List ℤ} (hn : ∀ n ∈ ns, 2 ≤ n) {q w : List Char} :
    Matches3 ns q w ↔ ∃ n ∈ ns, Shares n q w := by
  unfold Matches3 Shares
  constructor
  · rintro ⟨n, h, g, h1, h2⟩
    refine ⟨n, h, g, ?_, h2⟩
    unfold gramsOf
    rw [if_pos (by have := hn n h; omega)]
    exact h1
  · rintro ⟨n, h, g, h1, h2⟩
    refine ⟨n, h, g, ?_, h2⟩
    unfold gramsOf at h1
    rwa [if_pos (by have := hn n h; omega)] at h1

theorem perm_discovered3_reverse {ns : List ℤ} (hn : ∀ n ∈ ns, 2 ≤ n) {q : List Char} (hq : Clean q)
    {words : List (List Char)} (hw : ∀ w ∈ words, Clean w) :
    (discovered3 ns q.reverse (words.map List.reverse)).Perm
      ((discovered3 ns q words).map List.reverse) := by
  have hnd : ∀ q ws, (discovered3 ns q ws).Nodup := fun _ _ => nodup_firsts _
  rw [List.perm_ext_iff_of_nodup (hnd _ _) ((hnd _ _).map List.reverse_injective)]
  intro x
  simp only [mem_discovered3, List.mem_map, matches3_iff_shares hn]
  constructor
  · rintro ⟨⟨a, ha, rfl⟩, n, h1, h2⟩
    exact ⟨a, ⟨ha, n, h1, (shares_reverse hq (hw a ha)).mp h2⟩, rfl⟩
  · rintro ⟨a, ⟨ha, n, h1, h2⟩, rfl⟩
    exact ⟨⟨a, ha, rfl⟩, n, h1, (shares_reverse hq (hw a ha)).mpr h2⟩

/-- **C243.** The same for `ApproxWordListV3`. -/
theorem C243_v3_reverse (hcf : ∀ w, cf (cf w) = cf w) {n : NArg} {cs : Bool} {st₀ : V3}
    (h0 : V3.new n cs = .ok st₀) (hn2 : ∀ n ∈ st₀.nList, 2 ≤ n)
    (hrev : cs = false → ∀ w, cf w.reverse = (cf w).reverse)
    (agg : List ℚ → S) (vs : List PyVal) (v : PyVal) (topK : Option ℤ) :
    ((st₀.addAll cf (vs.map (renVal List.reverse))).lookup agg cf (renVal List.reverse v) topK).map
        (List.map fun r => r.2.1) =
      ((st₀.addAll cf vs).lookup agg cf v topK).map (List.map fun r => r.2.1) := by
  have hn : ∀ n ∈ st₀.nList, 0 < n := fun n h => by have := hn2 n h; omega
  obtain ⟨hi, e1, e2, e3⟩ := V3.addAll_spec hcf h0 hn vs
  obtain ⟨hi', e1', e2', e3'⟩ := V3.addAll_spec hcf h0 hn (vs.map (renVal List.reverse))
  have hfold₀ : ∀ w : List Char, (if (!cs) = true then cf w.reverse else w.reverse) =
      (if (!cs) = true then cf w else w).reverse := by
    intro w
    cases cs with
    | true => rfl
    | false => exact hrev rfl w
  have e4 : (vs.map (renVal List.reverse)).map PyVal.str? =
      (vs.map PyVal.str?).map (Option.map List.reverse) := by
    rw [List.map_map, List.map_map]
    apply List.map_congr_left
    intro v _
    cases v <;> rfl
  rw [e4, stored3_ren List.reverse_injective (by simp) (by simp) (by simp) hfold₀, ← e3] at e3'
  have hfold : ∀ w : List Char, (st₀.addAll cf (vs.map (renVal List.reverse))).fold cf w.reverse =
      ((st₀.addAll cf vs).fold cf w).reverse := by
    intro w
    unfold V3.fold
    rw [e2, e2']
    exact hfold₀ w
  rw [← e1] at e1' hn2
  generalize st₀.addAll cf vs = st at *
  generalize st₀.addAll cf (vs.map (renVal List.reverse)) = st' at *
  cases v with
  | int i => rfl
  | other => rfl
  | str w =>
    show (st'.lookup agg cf (.str w.reverse) topK).map _ = _
    by_cases hw : w = []
    · subst hw; rfl
    by_cases hq : Clean (st.fold cf w)
    · have hp := perm_discovered3_reverse hn2 hq fun x hx => (hi.words x hx).1
      rw [V3.lookup_exact hi agg hw rfl hq,
        V3.lookup_exact hi' agg (by simpa using hw) (hfold w) (clean_reverse hq)]
      have hl := hp.length_eq
      rw [List.length_map] at hl
      rw [e1', e3', List.length_reverse, hl]
      have hnil : (discovered3 st.nList (st.fold cf w).reverse (st.vocabulary.map List.reverse) = []) =
          (discovered3 st.nList (st.fold cf w) st.vocabulary = []) := by
        rw [← List.length_eq_zero_iff, hl, List.length_eq_zero_iff]
      simp only [hnil]
      split
      · rfl
      split
      · rfl
      split
      · rfl
      show Except.ok _ = Except.ok _
      rw [List.map_map, List.map_map]
      congr 1
      refine best_scores_congr ?_ _
      refine (hp.map _).trans ?_
      rw [List.map_map]
      apply List.Perm.of_eq
      apply List.map_congr_left
      intro x hx
      simp only [Function.comp_apply]
      rw [scoreVec3_reverse hn2 hq (hi.words x (mem_discovered3.mp hx).1).1]
    · have hc : '\x02' ∈ st.fold cf w ∨ '\x03' ∈ st.fold cf w := by
        by_contra hc
        exact hq (not_or.mp hc)
      have hw' : ¬ w.length = 0 := by simpa using hw
      unfold V3.lookup
      simp only [List.length_reverse, hfold, List.mem_reverse, if_neg hw', if_pos hc]

example :
    let st₀ : V3 := ⟨[2, 3], false, [], [], []⟩
    let st := st₀.addAll id [.str "abc".toList, .str "bcd".toList]
    let st' := st₀.addAll id [.str "cba".toList, .str "dcb".toList]
    (st.lookup mean1 id (.str "abcc".toList) none).map List.length = .ok 2 ∧
    (st'.lookup mean1 id (.str "ccba".toList) none).map (List.map fun r => r.2.1) =
      (st.lookup mean1 id (.str "abcc".toList) none).map (List.map fun r => r.2.1) := by
  decide +kernel

end Verif
