import Verif.Index.V3Lemmas

/-!
# C70–C72: `ApproxWordListV3`
-/

namespace Verif

open GramSpec IndexSpec

variable {cf : List Char → List Char} {S : Type} [LinearOrder S]

/-- How many results `lookup` returns at most. -/
def limit3 (topK : Option ℤ) (all : ℕ) : ℕ :=
  match topK with
  | none => all
  | some k => if 0 < k then k.toNat else all

theorem nmd2_ok {q w : List Char} (hq : Clean q) (hw : Clean w) :
    ∃ x, nmd (.str q) (.str w) (.int 2) true true = .ok x := by
  rw [nmd_valid hq hw (by norm_num)]
  simp only [if_true]
  split
  · rename_i h
    exfalso
    unfold countInt at h
    have h1 : (0 : ℚ) ≤ q.length := Nat.cast_nonneg _
    have h2 : (0 : ℚ) ≤ w.length := Nat.cast_nonneg _
    linarith
  · exact ⟨_, rfl⟩

omit [LinearOrder S] in
/-- The candidates and their scores, or the reason why there are none. -/
theorem V3.lookupScores_spec (agg : List ℚ → S) {st : V3} (hi : V3Inv cf st) (q : List Char) :
    if ∃ n ∈ st.nList, (q.length : ℤ) + 2 = n then
      st.lookupScores agg q = .error .zeroDivisionError
    else ∃ l : List (ℕ × List Char),
      (l.map Prod.snd).Perm (st.vocabulary.filter (fun w => Matches3 st.nList q w)) ∧
      (∀ p ∈ l, st.vocabulary[p.1]? = some p.2) ∧
      st.lookupScores agg q =
        if l ≠ [] ∧ ∃ n ∈ st.nList, (q.length : ℤ) + 3 = n then .error .zeroDivisionError
        else .ok (l.map (fun p => (p.1, agg (scoreVec3 st.nList q p.2)))) := by
  have hlen : ∀ n ∈ st.nList, (v3QueryGrams q n).length = 1 ↔ (q.length : ℤ) + 2 = n := by
    intro n hn
    have := hi.posN n hn
    rw [v3QueryGrams_eq this, grams, List.length_map, List.length_range, count_eq]
    omega
  split
  · rename_i h
    obtain ⟨n, hn, h⟩ := h
    unfold V3.lookupScores
    rw [V3.matches_error q ⟨n, hn, (hlen n hn).2 h⟩]
    rfl
  · rename_i h
    obtain ⟨l, h1, h2, h3⟩ := V3.matches_spec hi q
      (fun n hn h' => h ⟨n, hn, (hlen n hn).1 h'⟩)
    refine ⟨l, h2, h3, ?_⟩
    unfold V3.lookupScores
    rw [h1]
    simp only [bind, Except.bind]
    by_cases hd : ∃ n ∈ st.nList, (q.length : ℤ) + 3 = n
    · by_cases hl : l = []
      · subst hl
        rw [if_neg (by simp)]
        rfl
      · rw [if_pos ⟨hl, hd⟩, mapM_error (e := .zeroDivisionError)]
        · obtain ⟨p, hp⟩ := List.exists_mem_of_ne_nil l hl
          exact ⟨_, List.mem_map_of_mem hp, by rw [V3.normalizeRow_spec hi, if_pos hd]⟩
        · intro a ha
          obtain ⟨p, _, rfl⟩ := List.mem_map.1 ha
          left
          rw [V3.normalizeRow_spec hi, if_pos hd]
    · rw [if_neg (fun h => hd h.2), List.mapM_map,
        mapM_ok (g := fun p : ℕ × List Char => (p.1, scoreVec3 st.nList q p.2))]
      · simp only [pure, Except.pure, List.map_map]
        rfl
      · intro p _
        simp only [Function.comp_apply]
        rw [V3.normalizeRow_spec hi, if_neg hd]

/-- **C70.** Complete description of `lookup` after any sequence of `add_word` calls, for positive
n-gram sizes: with `q` the folded query and `words` the stored words,

* a size `len(q) + 2` raises `ZeroDivisionError` (one n-gram in the query);
* otherwise, if no stored word shares an n-gram with the query, `IndexError`;
* otherwise a size `len(q) + 3` raises `ZeroDivisionError`;
* otherwise the matching words ranked by their scores, cut off after `top_k`. -/
theorem C70_v3_lookup (hcf : ∀ w, cf (cf w) = cf w) {n : NArg} {cs : Bool} {st₀ : V3}
    (h0 : V3.new n cs = .ok st₀) (hn : ∀ n ∈ st₀.nList, 0 < n) (args : List PyVal)
    (agg : List ℚ → S) (w : List Char) (topK : Option ℤ) :
    let fold : List Char → List Char := fun w => if (!cs) = true then cf w else w
    let words := stored3 fold (args.map PyVal.str?)
    let q := fold w
    let r := (st₀.addAll cf args).lookup agg cf (.str w) topK
    w ≠ [] → Clean q →
    if ∃ n ∈ st₀.nList, (q.length : ℤ) + 2 = n then r = .error .zeroDivisionError
    else if ¬ ∃ v ∈ words, Matches3 st₀.nList q v then r = .error .indexError
    else if ∃ n ∈ st₀.nList, (q.length : ℤ) + 3 = n then r = .error .zeroDivisionError
    else ∃ (ranked : List (List Char)) (sim : List Char → ℚ),
      ranked.Perm (words.filter (fun v => Matches3 st₀.nList q v)) ∧
      ranked.Pairwise (fun a b => agg (scoreVec3 st₀.nList q b) ≤ agg (scoreVec3 st₀.nList q a)) ∧
      (∀ v ∈ words, nmd (.str q) (.str v) (.int 2) true true = .ok (sim v)) ∧
      r = .ok ((ranked.take (limit3 topK ranked.length)).map
        (fun v => (v, agg (scoreVec3 st₀.nList q v), sim v))) := by
  intro fold words q r hw hq
  obtain ⟨hi, e1, e2, e3⟩ := V3.addAll_spec hcf h0 hn args
  have hfold : (st₀.addAll cf args).fold cf w = q := by unfold V3.fold; rw [e2]
  have hr : r = (do
        let counter ← (st₀.addAll cf args).lookupScores agg q
        let _ ← pyGet (mostCommon counter 1) 0
        let k := v3TopK topK counter.length
        let out ← (mostCommon counter (k * 2)).mapM (fun p => do
          let v ← pyGet (st₀.addAll cf args).vocabulary p.1
          let s ← nmd (.str q) (.str v) (.int 2) true true
          return (v, p.2, s))
        return out.take k) := by
    simp only [r, V3.lookup]
    rw [if_neg (by simpa using hw), hfold, if_neg (by rintro (h | h); exacts [hq.1 h, hq.2 h])]
  have hs := V3.lookupScores_spec agg hi q
  rw [e1] at hs
  rw [show (st₀.addAll cf args).vocabulary = words from e3] at hs hr
  have hwords : ∀ v ∈ words, Clean v := fun v hv => (hi.words v (e3 ▸ hv)).1
  clear_value r words
  by_cases c1 : ∃ n ∈ st₀.nList, (q.length : ℤ) + 2 = n
  · rw [if_pos c1] at hs ⊢
    rw [hr, hs]
    rfl
  rw [if_neg c1] at hs ⊢
  obtain ⟨l, h1, h2, h3⟩ := hs
  have hl : l = [] ↔ ¬ ∃ v ∈ words, Matches3 st₀.nList q v := by
    have h4 : l = [] ↔ words.filter (fun w => Matches3 st₀.nList q w) = [] := by
      rw [← List.length_eq_zero_iff, ← List.length_eq_zero_iff, ← h1.length_eq, List.length_map]
    rw [h4, List.filter_eq_nil_iff]
    simp
  by_cases c2 : ¬ ∃ v ∈ words, Matches3 st₀.nList q v
  · rw [if_pos c2]
    have := hl.2 c2
    subst this
    rw [hr, h3, if_neg (by simp)]
    rfl
  rw [if_neg c2]
  have hne : l ≠ [] := fun h => c2 (hl.1 h)
  by_cases c3 : ∃ n ∈ st₀.nList, (q.length : ℤ) + 3 = n
  · rw [if_pos c3, hr, h3, if_pos ⟨hne, c3⟩]
    rfl
  rw [if_neg c3]
  rw [if_neg (fun h => c3 h.2)] at h3
  let sim : List Char → ℚ := fun v =>
    match nmd (.str q) (.str v) (.int 2) true true with
    | .ok x => x
    | .error _ => 0
  have hsim : ∀ v ∈ words, nmd (.str q) (.str v) (.int 2) true true = .ok (sim v) := by
    intro v hv
    obtain ⟨x, hx⟩ := nmd2_ok hq (hwords v hv)
    simp only [sim, hx]
  let L := sortDesc (fun p : ℕ × List Char => agg (scoreVec3 st₀.nList q p.2)) l
  have hL : L.Perm l := sortDesc_perm _ _
  have hsort : sortDesc Prod.snd (l.map (fun p => (p.1, agg (scoreVec3 st₀.nList q p.2)))) =
      L.map (fun p => (p.1, agg (scoreVec3 st₀.nList q p.2))) := by
    simp only [L, sortDesc]
    exact (List.map_insertionSort (r := fun a b : ℕ × List Char =>
      agg (scoreVec3 st₀.nList q b.2) ≤ agg (scoreVec3 st₀.nList q a.2))
      (s := fun a b : ℕ × S => b.2 ≤ a.2) _ l (fun a _ b _ => Iff.rfl)).symm
  refine ⟨L.map Prod.snd, sim, (hL.map _).trans h1, ?_, hsim, ?_⟩
  · rw [List.pairwise_map]
    exact sortDesc_pairwise _ _
  · rw [hr, h3]
    simp only [bind, Except.bind, mostCommon, hsort]
    have hLne : L ≠ [] := fun h => hne (List.perm_nil.1 (h ▸ hL.symm))
    obtain ⟨p0, L', hL'⟩ := List.exists_cons_of_ne_nil hLne
    have hget : pyGet (List.take 1 (L.map (fun p => (p.1, agg (scoreVec3 st₀.nList q p.2))))) 0 =
        .ok (p0.1, agg (scoreVec3 st₀.nList q p0.2)) := by
      rw [hL']; rfl
    rw [hget]
    simp only [List.length_map]
    have hk : v3TopK topK l.length = limit3 topK L.length := by
      rw [hL.length_eq]
      unfold limit3 v3TopK
      cases topK with
      | none => rfl
      | some k =>
        by_cases h : 0 < k
        · simp only [if_pos h]; rw [if_neg (by omega)]
        · simp only [if_neg h]; rw [if_pos (by omega)]
    rw [hk, ← List.map_take, List.mapM_map,
      mapM_ok (g := fun p : ℕ × List Char => (p.2, agg (scoreVec3 st₀.nList q p.2), sim p.2))]
    · simp only [pure, Except.pure, List.map_take, List.map_map]
      rw [List.take_take, Nat.min_eq_left (by omega)]
      rfl
    · intro p hp
      have hpl : p ∈ l := hL.subset (List.mem_of_mem_take hp)
      have hv := h2 p hpl
      simp only [Function.comp_apply, pyGet_ok' hv, hsim p.2 (List.mem_of_getElem? hv), pure,
        Except.pure]

/-- **C70.** Invalid arguments of `lookup` and `add_word`. -/
theorem C70_v3_rejects (st : V3) (agg : List ℚ → S) (topK : Option ℤ) :
    (∀ v, (∀ s, v ≠ .str s) → st.lookup agg cf v topK = .error .typeError ∧
      st.addWord cf v = (st, .error .typeError)) ∧
    st.lookup agg cf (.str []) topK = .error .valueError ∧
    st.addWord cf (.str []) = (st, .error .valueError) ∧
    (∀ w, w ≠ [] → ¬ Clean (st.fold cf w) →
      st.lookup agg cf (.str w) topK = .error .assertionError) := by
  refine ⟨?_, rfl, rfl, ?_⟩
  · intro v hv
    cases v with
    | str s => exact absurd rfl (hv s)
    | int i => exact ⟨rfl, rfl⟩
    | other => exact ⟨rfl, rfl⟩
  · intro w hw hc
    simp only [V3.lookup]
    rw [if_neg (by simpa using hw), if_pos]
    by_contra h
    rw [not_or] at h
    exact hc h

theorem overlap3_bounds (n : ℤ) (q w : List Char) :
    0 ≤ overlap3 n q w ∧ overlap3 n q w ≤ (grams n.toNat q).length := by
  have hu1 := unitLocated_locatedOf (grams n.toNat q)
  have hu2 := unitLocated_locatedOf (gramsOf n w)
  constructor
  · apply Finset.sum_nonneg
    intro g _
    have h := emd_le_max (spread1_of_unit hu1 hu2 g)
    rw [length_locs_locatedOf, length_locs_locatedOf, ← posOf_eq, ← posOf_eq] at h
    have h' : emd (posOf (grams n.toNat q) g) (posOf (gramsOf n w) g) ≤
        max ((grams n.toNat q).count g : ℚ) ((gramsOf n w).count g) := by exact_mod_cast h
    linarith
  · have h1 : overlap3 n q w ≤ ∑ g ∈ (grams n.toNat q).toFinset ∩ (gramsOf n w).toFinset,
        ((Dict.locs (locatedOf (grams n.toNat q)) g).length : ℚ) := by
      apply Finset.sum_le_sum
      intro g _
      have a1 := sub_le_emd (posOf (grams n.toNat q) g) (posOf (gramsOf n w) g)
      have a2 := sub_le_emd (posOf (gramsOf n w) g) (posOf (grams n.toNat q) g)
      rw [emd_comm] at a2
      rw [posOf_eq, posOf_eq, length_locs_locatedOf, length_locs_locatedOf] at a1 a2
      rw [length_locs_locatedOf, posOf_eq, posOf_eq]
      have hnn : (0 : ℚ) ≤ emd (Dict.locs (locatedOf (grams n.toNat q)) g)
          (Dict.locs (locatedOf (gramsOf n w)) g) := by
        exact emd_nonneg _ _
      rcases max_cases ((grams n.toNat q).count g : ℚ) ((gramsOf n w).count g) with h | h <;>
        rw [h.1] <;> linarith
    refine h1.trans ?_
    rw [← length_locatedOf, ← sum_length_locs _ (le_refl _), gramSet_locatedOf]
    exact Finset.sum_le_sum_of_subset_of_nonneg Finset.inter_subset_left
      (fun _ _ _ => Nat.cast_nonneg _)

theorem overlap3_self {n : ℤ} (hn : 1 < n) (q : List Char) :
    overlap3 n q q = (grams n.toNat q).length := by
  have hg : gramsOf n q = grams n.toNat q := by unfold gramsOf; rw [if_pos hn]
  unfold overlap3
  rw [hg, Finset.inter_self]
  simp only [max_self, emd_self, sub_zero]
  rw [← length_locatedOf, ← sum_length_locs _ (le_refl _), gramSet_locatedOf]
  exact Finset.sum_congr rfl (fun g _ => by rw [length_locs_locatedOf])

/-- **C71.** Every score lies between 0 and 1, and a stored word equal to the query scores 1, as
long as every size is at least 2 and at most the length of the query plus 1. -/
theorem C71_v3_score_range {ns : List ℤ} (hne : ns ≠ []) {q : List Char}
    (hn : ∀ n ∈ ns, 2 ≤ n ∧ n ≤ (q.length : ℤ) + 1) (w : List Char) :
    0 ≤ mean1 (scoreVec3 ns q w) ∧ mean1 (scoreVec3 ns q w) ≤ 1 ∧
      mean1 (scoreVec3 ns q q) = 1 := by
  have hlen : ∀ n ∈ ns, (((grams n.toNat q).length : ℕ) : ℚ) = (q.length : ℚ) + 3 - n ∧
      (0 : ℚ) < (q.length : ℚ) + 3 - n := by
    intro n h
    obtain ⟨h1, h2⟩ := hn n h
    rw [grams, List.length_map, List.length_range, count_eq]
    have : ((q.length + 3 - n.toNat : ℕ) : ℤ) = (q.length : ℤ) + 3 - n := by omega
    have h3 : ((q.length + 3 - n.toNat : ℕ) : ℚ) = (q.length : ℚ) + 3 - n := by exact_mod_cast this
    have h4 : (0 : ℤ) < (q.length : ℤ) + 3 - n := by omega
    exact ⟨h3, by exact_mod_cast h4⟩
  have hb : ∀ n ∈ ns, 0 ≤ score3 n q w ∧ score3 n q w ≤ 1 ∧ score3 n q q = 1 := by
    intro n h
    obtain ⟨h1, h2⟩ := hlen n h
    obtain ⟨h3, h4⟩ := overlap3_bounds n q w
    unfold score3
    refine ⟨div_nonneg h3 h2.le, ?_, ?_⟩
    · rw [div_le_one h2, ← h1]; exact h4
    · rw [overlap3_self (by have := hn n h; omega), h1, div_self h2.ne']
  have hpos : (0 : ℚ) < ns.length := by
    exact_mod_cast List.length_pos_of_ne_nil hne
  unfold mean1 scoreVec3
  rw [List.length_map, List.length_map]
  refine ⟨div_nonneg (List.sum_nonneg ?_) hpos.le, ?_, ?_⟩
  · intro x hx
    obtain ⟨n, h, rfl⟩ := List.mem_map.1 hx
    exact (hb n h).1
  · rw [div_le_one hpos]
    have := List.sum_le_card_nsmul (ns.map (fun n => score3 n q w)) 1 (by
      intro x hx
      obtain ⟨n, h, rfl⟩ := List.mem_map.1 hx
      exact (hb n h).2.1)
    simpa using this
  · rw [List.map_congr_left (g := fun _ => (1 : ℚ)) (fun n h => (hb n h).2.2)]
    simp [hpos.ne']

/-- **C71.** Consequently a lookup of a stored word (sizes as above) succeeds, its first result has
score 1, and all reported scores lie between 0 and 1. -/
theorem C71_v3_exact_match_score (hcf : ∀ w, cf (cf w) = cf w) {n : NArg} {cs : Bool} {st₀ : V3}
    (h0 : V3.new n cs = .ok st₀) (hne : st₀.nList ≠ []) (args : List PyVal) (w : List Char)
    (topK : Option ℤ) :
    let fold : List Char → List Char := fun w => if (!cs) = true then cf w else w
    w ≠ [] → (∀ n ∈ st₀.nList, 2 ≤ n ∧ n ≤ ((fold w).length : ℤ) + 1) →
    fold w ∈ stored3 fold (args.map PyVal.str?) →
    ∃ v x rest, (st₀.addAll cf args).lookup mean1 cf (.str w) topK = .ok ((v, 1, x) :: rest) ∧
      ∀ r ∈ rest, 0 ≤ r.2.1 ∧ r.2.1 ≤ 1 := by
  intro fold hw hn hmem
  have hn0 : ∀ n ∈ st₀.nList, 0 < n := fun n h => by have := (hn n h).1; omega
  obtain ⟨hi, e1, e2, e3⟩ := V3.addAll_spec hcf h0 hn0 args
  have hq : Clean (fold w) := (hi.words _ (e3 ▸ hmem)).1
  have h := C70_v3_lookup hcf h0 hn0 args mean1 w topK hw hq
  change (if ∃ n ∈ st₀.nList, ((fold w).length : ℤ) + 2 = n then _
    else if ¬ ∃ v ∈ stored3 fold (args.map PyVal.str?), Matches3 st₀.nList (fold w) v then _
    else if ∃ n ∈ st₀.nList, ((fold w).length : ℤ) + 3 = n then _
    else ∃ (ranked : List (List Char)) (sim : List Char → ℚ),
      ranked.Perm ((stored3 fold (args.map PyVal.str?)).filter
        (fun v => Matches3 st₀.nList (fold w) v)) ∧
      ranked.Pairwise (fun a b => mean1 (scoreVec3 st₀.nList (fold w) b) ≤
        mean1 (scoreVec3 st₀.nList (fold w) a)) ∧ _ ∧
      (st₀.addAll cf args).lookup mean1 cf (.str w) topK =
        .ok ((ranked.take (limit3 topK ranked.length)).map
          (fun v => (v, mean1 (scoreVec3 st₀.nList (fold w) v), sim v)))) at h
  have hself : Matches3 st₀.nList (fold w) (fold w) := by
    obtain ⟨n, hnm⟩ := List.exists_mem_of_ne_nil _ hne
    obtain ⟨h1, h2⟩ := hn n hnm
    have hg : gramsOf n (fold w) = grams n.toNat (fold w) := by
      unfold gramsOf; rw [if_pos (by omega)]
    have hl : (grams n.toNat (fold w)) ≠ [] := by
      intro hnil
      have := congrArg List.length hnil
      rw [grams, List.length_map, List.length_range, count_eq] at this
      simp only [List.length_nil] at this
      omega
    obtain ⟨g, hgm⟩ := List.exists_mem_of_ne_nil _ hl
    exact ⟨n, hnm, g, hgm, hg ▸ hgm⟩
  rw [if_neg (by rintro ⟨n, hnm, h'⟩; have := (hn n hnm).2; omega),
    if_neg (not_not.2 ⟨_, hmem, hself⟩),
    if_neg (by rintro ⟨n, hnm, h'⟩; have := (hn n hnm).2; omega)] at h
  obtain ⟨ranked, sim, h1, h2, -, h4⟩ := h
  have hin : fold w ∈ ranked := h1.symm.subset (List.mem_filter.2 ⟨hmem, by simpa using hself⟩)
  obtain ⟨v, rest, hr⟩ := List.exists_cons_of_ne_nil (List.ne_nil_of_mem hin)
  obtain ⟨b1, b2, b3⟩ := C71_v3_score_range hne hn v
  have hv : mean1 (scoreVec3 st₀.nList (fold w) v) = 1 := by
    apply le_antisymm b2
    rw [hr] at h2 hin
    rcases List.mem_cons.1 hin with h' | h'
    · rw [← h']; exact b3.symm.le
    · exact b3.symm.le.trans ((List.pairwise_cons.1 h2).1 _ h')
  obtain ⟨k, hk⟩ : ∃ k, limit3 topK ranked.length = k + 1 := by
    apply Nat.exists_eq_succ_of_ne_zero
    unfold limit3
    cases topK with
    | none => simp [hr]
    | some k =>
      by_cases h : 0 < k
      · simp only [if_pos h]; omega
      · simp [if_neg h, hr]
  rw [hk, hr, List.take_succ_cons, List.map_cons] at h4
  rw [hv] at h4
  refine ⟨v, sim v, _, h4, ?_⟩
  intro r hr'
  obtain ⟨u, -, rfl⟩ := List.mem_map.1 hr'
  exact ⟨(C71_v3_score_range hne hn u).1, (C71_v3_score_range hne hn u).2.1⟩

/-- The default word list with three words. -/
def demo3 : V3 :=
  ({ nList := [2, 4], caseInsensitive := false, vocabulary := [], vocabIndices := [],
     ngramIndices := [] } : V3).addAll id [.str "abcabxxbcabc".toList, .str "abc".toList,
      .str "xyz".toList]

/-- **C71.** With the default sizes a stored word equal to the query can nevertheless come second:
"abcabxxbcabc" contains the n-grams of "abc" at the same relative positions. -/
theorem C71_v3_exact_match_not_first :
    demo3.lookup mean1 id (.str "abc".toList) (some 10) =
      .ok [("abcabxxbcabc".toList, 1, 8 / 17), ("abc".toList, 1, 1)] := by
  decide +kernel

example : demo3.lookup mean1 id (.str "abd".toList) none =
    .ok [("abcabxxbcabc".toList, 1 / 4, 4 / 17), ("abc".toList, 1 / 4, 1 / 2)] := by decide +kernel

-- one n-gram of size 4 in the query; no candidate; no n-gram of size 4
example : demo3.lookup mean1 id (.str "ab".toList) none = .error .zeroDivisionError := by
  decide +kernel
example : demo3.lookup mean1 id (.str "qrs".toList) none = .error .indexError := by decide +kernel
example : demo3.lookup mean1 id (.str "a".toList) none = .error .zeroDivisionError := by
  decide +kernel
example : demo3.lookup mean1 id (.str "q".toList) none = .error .indexError := by decide +kernel

/-- **C72.** The property `vocabulary` never returns: whatever the recursion limit, it is exceeded. -/
theorem C72_v3_vocabulary_recursion (st : V3) (limit : ℕ) :
    st.vocabularyProperty limit = .error .recursionError := by
  induction limit with
  | zero => rfl
  | succ k ih => rw [V3.vocabularyProperty, ih]; rfl

end Verif
