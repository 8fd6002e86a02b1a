import Verif.Index.SymProps

/-!
# Property C181: word lists of reversed words
-/

namespace Verif

open GramSpec IndexSpec

/-! ### n-grams of reversed words -/

/-- An n-gram read backwards, with the markers exchanged. -/
def mirrorGram (g : List Char) : List Char := (g.map swapMark).reverse

theorem mirrorGram_mirrorGram (g : List Char) : mirrorGram (mirrorGram g) = g := by
  unfold mirrorGram
  rw [List.map_reverse, List.reverse_reverse, List.map_map]
  have : swapMark ∘ swapMark = id := by funext c; exact swapMark_swapMark c
  rw [this, List.map_id]

theorem mirrorGram_injective : Function.Injective mirrorGram :=
  Function.LeftInverse.injective mirrorGram_mirrorGram

theorem gramsOf_reverse (n : ℤ) {w : List Char} (hw : Clean w) :
    gramsOf n w.reverse = ((gramsOf n w).map mirrorGram).reverse := by
  unfold gramsOf
  split
  · unfold grams
    rw [count_reverse, List.map_map, ← List.map_reverse]
    apply List.ext_getElem
    · simp
    · intro i h1 h2
      simp only [List.length_map, List.length_range] at h1
      simp only [List.getElem_map, List.getElem_range, List.getElem_reverse, Function.comp,
        List.length_range]
      exact gramAt_reverse hw h1
  · rw [List.map_reverse, List.map_map]
    congr 1
    apply List.map_congr_left
    intro c hc
    have h1 : c ≠ stx := fun e => hw.1 (e ▸ hc)
    have h2 : c ≠ etx := fun e => hw.2 (e ▸ hc)
    simp [mirrorGram, swapMark, h1, h2]

theorem mem_gramsOf_reverse {n : ℤ} {w : List Char} (hw : Clean w) (g : List Char) :
    g ∈ gramsOf n w.reverse ↔ mirrorGram g ∈ gramsOf n w := by
  rw [gramsOf_reverse n hw, List.mem_reverse]
  conv_lhs => rw [← mirrorGram_mirrorGram g]
  exact List.mem_map_of_injective mirrorGram_injective

theorem count_gramsOf_reverse {n : ℤ} {w : List Char} (hw : Clean w) (g : List Char) :
    (gramsOf n w.reverse).count g = (gramsOf n w).count (mirrorGram g) := by
  rw [gramsOf_reverse n hw, List.count_reverse]
  conv_lhs => rw [← mirrorGram_mirrorGram g]
  exact List.count_map_of_injective _ _ mirrorGram_injective _

theorem shares_reverse {n : ℤ} {q w : List Char} (hq : Clean q) (hw : Clean w) :
    Shares n q.reverse w.reverse ↔ Shares n q w := by
  unfold Shares
  simp only [mem_gramsOf_reverse hq, mem_gramsOf_reverse hw]
  constructor
  · rintro ⟨g, h⟩; exact ⟨_, h⟩
  · rintro ⟨g, h⟩; exact ⟨mirrorGram g, by rwa [mirrorGram_mirrorGram]⟩

theorem eligible_reverse {ns : List ℤ} {fn : ℤ} {q w : List Char} (hq : Clean q) (hw : Clean w) :
    Eligible ns fn q.reverse w.reverse ↔ Eligible ns fn q w := by
  unfold Eligible
  simp only [shares_reverse hq hw]

theorem commonN_reverse (n : ℤ) {q w : List Char} (hq : Clean q) (hw : Clean w) :
    commonN n q.reverse w.reverse = commonN n q w := by
  unfold commonN
  refine Finset.sum_nbij' mirrorGram mirrorGram ?_ ?_ (fun g _ => mirrorGram_mirrorGram g)
    (fun g _ => mirrorGram_mirrorGram g) ?_
  · intro g hg
    simpa [mem_gramsOf_reverse hq, mem_gramsOf_reverse hw] using hg
  · intro g hg
    simpa [mem_gramsOf_reverse hq, mem_gramsOf_reverse hw, mirrorGram_mirrorGram] using hg
  · intro g _
    rw [count_gramsOf_reverse hq, count_gramsOf_reverse hw]

theorem denom_reverse (n : ℤ) (q w : List Char) : denom n q.reverse w.reverse = denom n q w := by
  unfold denom
  rw [List.length_reverse, List.length_reverse]

theorem scoreVec_reverse {ns : List ℤ} (hn : ∀ n ∈ ns, 2 ≤ n) (normalize : Bool) {q w : List Char}
    (hq : Clean q) (hw : Clean w) :
    scoreVec ns normalize q.reverse w.reverse = scoreVec ns normalize q w := by
  unfold scoreVec
  apply List.map_congr_left
  intro n h
  unfold scoreN
  rw [simN_eq_located (hn n h), simN_eq_located (hn n h), locSim_reverse hq hw, denom_reverse]

theorem lowerVec_reverse {ns : List ℤ} (normalize : Bool) {q w : List Char}
    (hq : Clean q) (hw : Clean w) :
    lowerVec ns normalize q.reverse w.reverse = lowerVec ns normalize q w := by
  unfold lowerVec
  simp only [commonN_reverse _ hq hw, denom_reverse]

/-! ### Lookups -/

variable {S : Type} [LinearOrder S] {agg : List ℚ → S} {ns : List ℤ} {fn : ℤ} {normalize : Bool}

theorem eligibleWords_reverse {q : List Char} (hq : Clean q) {words : List (List Char)}
    (hw : ∀ w ∈ words, Clean w) :
    eligibleWords ns fn q.reverse (words.map List.reverse) =
      (eligibleWords ns fn q words).map List.reverse := by
  unfold eligibleWords
  rw [List.filter_map]
  congr 1
  apply List.filter_congr
  intro w h
  exact decide_eq_decide.2 (eligible_reverse hq (hw w h))

theorem outranked_reverse {q : List Char} (hq : Clean q) {words : List (List Char)}
    (hw : ∀ w ∈ words, Clean w) {k : ℕ} {w : List Char} (hcw : Clean w) :
    Outranked agg ns fn normalize q.reverse (words.map List.reverse) k w.reverse ↔
      Outranked agg ns fn normalize q words k w := by
  unfold Outranked
  rw [eligibleWords_reverse hq hw, lowerVec_reverse normalize hq hcw, List.filter_map,
    List.length_map]
  have : (eligibleWords ns fn q words).filter ((fun v => decide
        (agg ((lowerVec ns normalize q w).map (fun x => x * 2)) <
          agg (lowerVec ns normalize q.reverse v))) ∘ List.reverse) =
      (eligibleWords ns fn q words).filter (fun v => decide
        (agg ((lowerVec ns normalize q w).map (fun x => x * 2)) <
          agg (lowerVec ns normalize q v))) := by
    apply List.filter_congr
    intro v hv
    simp only [Function.comp_apply]
    rw [lowerVec_reverse normalize hq (hw v (List.mem_filter.1 hv).1)]
  rw [this]

theorem lookupFails_reverse {q : List Char} (hq : Clean q) {words : List (List Char)}
    (hw : ∀ w ∈ words, Clean w) {k : ℕ} :
    LookupFails agg ns fn normalize (words.map List.reverse) k q.reverse ↔
      LookupFails agg ns fn normalize words k q := by
  have hl : ∀ n, (gramsOf n q.reverse).length = (gramsOf n q).length := by
    intro n; rw [gramsOf_reverse n hq]; simp
  have hex : ∀ P Q : List Char → Prop, (∀ w ∈ words, (P w.reverse ↔ Q w)) →
      ((∃ w ∈ words.map List.reverse, P w) ↔ ∃ w ∈ words, Q w) := by
    intro P Q h
    constructor
    · rintro ⟨_, hm, hp⟩
      obtain ⟨w, hm', rfl⟩ := List.mem_map.1 hm
      exact ⟨w, hm', (h w hm').1 hp⟩
    · rintro ⟨w, hm, hq⟩
      exact ⟨_, List.mem_map_of_mem hm, (h w hm).2 hq⟩
  unfold LookupFails
  simp only [hl]
  refine and_congr (hex _ _ fun w h => eligible_reverse hq (hw w h))
    (or_congr Iff.rfl (and_congr Iff.rfl (hex _ _ fun w h => ?_)))
  rw [eligible_reverse hq (hw w h), outranked_reverse hq hw (hw w h)]
  simp only [denom_reverse]

variable {cf : List Char → List Char}

theorem newWords_reverse {ci : Bool} (hrev : ci = true → ∀ w, cf w.reverse = (cf w).reverse)
    (ops : List WLOp) :
    newWords cf ci (ops.map (renWLOp List.reverse)) = (newWords cf ci ops).map List.reverse := by
  have e : ∀ op, addedBy cf ci (renWLOp List.reverse op) = (addedBy cf ci op).map List.reverse := by
    intro op
    cases op with
    | lookup _ _ _ => rfl
    | add v =>
      cases v with
      | int _ => rfl
      | other => rfl
      | str w =>
        have h : (if ci = true then cf w.reverse else w.reverse) =
            (if ci = true then cf w else w).reverse := by
          cases ci with
          | true => simpa using hrev rfl w
          | false => rfl
        unfold renWLOp renVal addedBy
        simp only [h]
        generalize (if ci = true then cf w else w) = x
        simp only [ne_eq, List.reverse_eq_nil_iff, List.mem_reverse]
        split <;> rfl
  unfold newWords
  rw [List.filterMap_map]
  have e2 : ops.filterMap (addedBy cf ci ∘ renWLOp List.reverse) =
      (ops.filterMap (addedBy cf ci)).map List.reverse := by
    rw [List.map_filterMap]
    congr 1
    funext op
    exact e op
  rw [e2]
  refine foldl_ren (ρ := List.map List.reverse) (s := ([] : List (List Char)))
    (fun l x => ?_) _
  simp only [List.mem_map_of_injective List.reverse_injective]
  split
  · rfl
  · rw [List.map_append]; rfl

/-- The scores of a result. -/
def scoresOf (r : Except PyErr (List (List Char × (S ×ₗ ℚ)))) : Except PyErr (List S) :=
  r.map (List.map fun r => (ofLex r.2).1)

/-- **C181.** With sizes of at least 2, reading all words and the query backwards changes no score of
a lookup and no exception (`agg` is any monotone mean). The words found may differ among words with
equal scores. Case folding, if used, must commute with reversal. -/
theorem C181_reverse (hcf : ∀ w, cf (cf w) = cf w) {n : NArg} {cs : Bool} {fn : ℤ} {st₀ : WL}
    (h0 : WL.new n cs fn = .ok st₀) (hn2 : ∀ n ∈ st₀.nList, 2 ≤ n)
    (hrev : cs = false → ∀ w, cf w.reverse = (cf w).reverse) (hagg : MonotoneAgg agg)
    (ops : List WLOp) (v k : PyVal) (normalize : Bool) :
    scoresOf ((st₀.run cf (ops.map (renWLOp List.reverse))).lookup agg cf (renVal List.reverse v) k
      normalize) = scoresOf ((st₀.run cf ops).lookup agg cf v k normalize) := by
  have hrev' : (!cs) = true → ∀ w, cf w.reverse = (cf w).reverse := by
    intro h; exact hrev (by simpa using h)
  have hw1 := (run_eq hcf h0 ops).2
  have hw2 := (run_eq hcf h0 (ops.map (renWLOp List.reverse))).2
  rw [newWords_reverse hrev', ← hw1] at hw2
  have hi0 : WLInv cf st₀ := WLInv.new h0
  have hci : st₀.caseInsensitive = !cs := by
    unfold WL.new at h0
    cases hm : mkNList n with
    | error e => rw [hm] at h0; cases h0
    | ok l =>
      rw [hm] at h0
      injection h0 with h0
      subst h0; rfl
  obtain ⟨c1, c2, c3⟩ := config_run hcf hi0 ops
  obtain ⟨d1, d2, d3⟩ := config_run hcf hi0 (ops.map (renWLOp List.reverse))
  have hr1 : (st₀.run cf ops).Reachable cf := ⟨_, _, _, _, _, h0, rfl⟩
  have hr2 : (st₀.run cf (ops.map (renWLOp List.reverse))).Reachable cf := ⟨_, _, _, _, _, h0, rfl⟩
  have hwords := (hr1.inv hcf).words
  generalize st₀.run cf ops = st at *
  generalize st₀.run cf (ops.map (renWLOp List.reverse)) = st' at *
  have hfold : ∀ w : List Char, st'.fold cf w.reverse = (st.fold cf w).reverse := by
    intro w
    unfold WL.fold
    rw [c3, d3, hci]
    split
    · rename_i h; exact hrev' h w
    · rfl
  have hcheck : st'.checkLookup cf (renVal List.reverse v) k =
      (st.checkLookup cf v k).map fun p => (p.1.reverse, p.2) := by
    cases v with
    | int i => rfl
    | other => rfl
    | str w =>
      unfold WL.checkLookup renVal
      simp only [List.length_reverse]
      split
      · rfl
      · cases k with
        | str _ => rfl
        | other => rfl
        | int k =>
          simp only
          rw [hfold]
          simp only [List.mem_reverse]
          split
          · rfl
          · split <;> rfl
  cases hc : st.checkLookup cf v k with
  | error e =>
    unfold WL.lookup
    rw [hcheck, hc]
    rfl
  | ok p =>
    have hargs : ∃ w k', v = .str w ∧ w ≠ [] ∧ k = .int k' ∧ 0 < k' ∧ Clean (st.fold cf w) := by
      unfold WL.checkLookup at hc
      cases v with
      | int i => cases hc
      | other => cases hc
      | str w =>
        simp only at hc
        split at hc
        · cases hc
        rename_i hw
        cases k with
        | str s => cases hc
        | other => cases hc
        | int k =>
          simp only at hc
          split at hc
          · cases hc
          rename_i hk
          split at hc
          · cases hc
          rename_i hcl
          rw [not_or] at hcl
          exact ⟨w, k, rfl, by simpa using hw, rfl, not_le.1 hk, hcl⟩
    obtain ⟨w, k', rfl, hw, rfl, hk, hcl⟩ := hargs
    have hcl' : Clean (st'.fold cf w.reverse) := by rw [hfold]; exact clean_reverse hcl
    obtain ⟨f1, f2⟩ := C30_zero_division hcf hr1 hagg hw hk hcl normalize
    obtain ⟨g1, g2⟩ := C30_zero_division hcf hr2 hagg (w := w.reverse) (by simpa using hw) hk hcl'
      normalize
    rw [hw2, hfold, d1, d2, ← c1, ← c2, lookupFails_reverse hcl fun x hx => (hwords x hx).1] at g1 g2
    by_cases hf : LookupFails agg st.nList st.filterN normalize st.wordList k'.toNat (st.fold cf w)
    · rw [f1.2 hf]
      show scoresOf (st'.lookup agg cf (.str w.reverse) (.int k') normalize) = _
      rw [g1.2 hf]
    · obtain ⟨res, hres⟩ := f2 hf
      obtain ⟨res', hres'⟩ := g2 hf
      have e1 := (C28_pruning_sound hcf hr1 hagg hres).1
      have e2 := (C28_pruning_sound hcf hr2 hagg hres').1
      rw [hres]
      show scoresOf (st'.lookup agg cf (.str w.reverse) (.int k') normalize) = _
      rw [hres']
      show Except.ok _ = Except.ok _
      congr 1
      have hperm : st'.vocabulary.Perm (st.vocabulary.map List.reverse) := by
        refine (List.perm_insertionSort _ _).trans ?_
        rw [hw2]
        exact ((List.perm_insertionSort _ _).map _).symm
      have hvc : ∀ x ∈ st.vocabulary, Clean x := fun x hx =>
        (hwords x ((List.perm_insertionSort _ _).mem_iff.1 hx)).1
      have key : ((eligibleWords st'.nList st'.filterN (st'.fold cf w.reverse) st'.vocabulary).map
            (fun v => agg (scoreVec st'.nList normalize (st'.fold cf w.reverse) v))).Perm
          ((eligibleWords st.nList st.filterN (st.fold cf w) st.vocabulary).map
            (fun v => agg (scoreVec st.nList normalize (st.fold cf w) v))) := by
        rw [hfold, d1, d2, ← c1, ← c2]
        refine ((hperm.filter _).map _).trans ?_
        have := eligibleWords_reverse (ns := st.nList) (fn := st.filterN) hcl hvc
        unfold eligibleWords at this ⊢
        rw [this, List.map_map]
        apply List.Perm.of_eq
        apply List.map_congr_left
        intro x hx
        simp only [Function.comp_apply]
        rw [scoreVec_reverse (fun n hn => hn2 n (c1 ▸ hn)) normalize hcl
          (hvc x (List.mem_filter.1 hx).1)]
      obtain ⟨rest, t1, t2, t3, t4⟩ := e2
      refine topScores_unique ⟨rest, t1.trans key, ?_, t3, t4⟩ e1
      rw [t2, key.length_eq]

example : scoresOf ((symList.run id (symWords.map (renWLOp List.reverse))).lookup mean1 id
      (.str "anbnab".toList) (.int 2) true) =
    scoresOf ((symList.run id symWords).lookup mean1 id (.str "banbna".toList) (.int 2) true) ∧
    (∀ n ∈ symList.nList, 2 ≤ n) ∧
    (scoresOf ((symList.run id symWords).lookup mean1 id (.str "banbna".toList) (.int 2)
      true)).toOption.map List.length = some 2 := by
  decide +kernel

/-- **C181.** With size 1 the scores can change: a word of one character is placed at the beginning,
whichever way it is read. -/
theorem C181_reverse_size_one : ∃ st₀, WL.new (.int 1) true 0 = .ok st₀ ∧ ∃ (ops : List WLOp)
    (w : List Char), scoresOf ((st₀.run id (ops.map (renWLOp List.reverse))).lookup mean1 id
      (.str w.reverse) (.int 1) true) ≠
    scoresOf ((st₀.run id ops).lookup mean1 id (.str w) (.int 1) true) :=
  ⟨_, rfl, [.add (.str "a".toList)], "ab".toList, by decide +kernel⟩

end Verif
