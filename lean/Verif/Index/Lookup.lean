import Verif.Index.MatchScores

/-!
# The whole lookup
-/

namespace Verif

open GramSpec IndexSpec

variable {cf : List Char → List Char} {st : WL} {S : Type} [LinearOrder S]

theorem mapM_ok {α β : Type} {f : α → Except PyErr β} {g : α → β} (l : List α)
    (h : ∀ a ∈ l, f a = .ok (g a)) : l.mapM f = .ok (l.map g) := by
  induction l with
  | nil => rfl
  | cons a l ih =>
    rw [List.mapM_cons, h a (by simp), ih (fun a ha => h a (by simp [ha]))]
    rfl

theorem mapM_error {α β : Type} {f : α → Except PyErr β} {e : PyErr} (l : List α)
    (h : ∃ a ∈ l, f a = .error e) (h' : ∀ a ∈ l, f a = .error e ∨ ∃ c, f a = .ok c) :
    l.mapM f = .error e := by
  induction l with
  | nil => obtain ⟨a, ha, _⟩ := h; cases ha
  | cons a l ih =>
    rw [List.mapM_cons]
    rcases h' a (by simp) with he | ⟨c, hc⟩
    · rw [he]; rfl
    · rw [hc]
      obtain ⟨x, hx, hx'⟩ := h
      rcases List.mem_cons.1 hx with rfl | hx
      · rw [hx'] at hc; cases hc
      · rw [ih ⟨x, hx, hx'⟩ (fun a ha => h' a (by simp [ha]))]; rfl

/-- Eligible words with their indices. -/
def WL.eligible (st : WL) (q : List Char) : List (List Char × ℕ) :=
  st.wordList.zipIdx.filter (fun p => Eligible st.nList st.filterN q p.1)

theorem mem_eligible {q w : List Char} {i : ℕ} :
    (w, i) ∈ st.eligible q ↔ st.wordList[i]? = some w ∧ Eligible st.nList st.filterN q w := by
  unfold WL.eligible
  rw [List.mem_filter, List.mem_zipIdx_iff_getElem?]; simp

theorem eligible_map_fst (q : List Char) :
    (st.eligible q).map Prod.fst = eligibleWords st.nList st.filterN q st.wordList := by
  unfold WL.eligible eligibleWords
  conv_rhs => rw [← List.zipIdx_map_fst 0 st.wordList, List.filter_map]
  rfl

theorem nodup_eligible_snd (q : List Char) : ((st.eligible q).map Prod.snd).Nodup := by
  unfold WL.eligible
  refine (List.Sublist.map Prod.snd List.filter_sublist).nodup ?_
  rw [List.zipIdx_map_snd]
  exact List.nodup_range'

theorem minScores_perm (hi : WLInv cf st) (q : List Char) (normalize : Bool) :
    ∃ ms, st.minScores q normalize = .ok ms ∧
      ms.Perm ((st.eligible q).map (fun p => (p.2, lowerVec st.nList normalize q p.1))) := by
  obtain ⟨ms, h1, h2, h3⟩ := minScores_spec hi q normalize
  refine ⟨ms, h1, (List.perm_ext_iff_of_nodup (List.Nodup.of_map _ h2) ?_).2 ?_⟩
  · apply List.Nodup.of_map Prod.fst
    rw [List.map_map]
    exact nodup_eligible_snd q
  · rintro ⟨oi, v⟩
    rw [h3, List.mem_map]
    constructor
    · rintro ⟨w, hw, he, rfl⟩
      exact ⟨(w, oi), mem_eligible.2 ⟨hw, he⟩, rfl⟩
    · rintro ⟨⟨w, i⟩, hm, he⟩
      injection he with h4 h5
      subst h4
      obtain ⟨hw, he⟩ := mem_eligible.1 hm
      exact ⟨w, hw, he, h5.symm⟩

theorem minAcceptable_spec {scores : List S} {k : ℕ} (hk : 1 ≤ k) (hs : scores ≠ []) :
    ∃ t, minAcceptable scores k = .ok t ∧
      (∀ u, t ≤ u ↔ (scores.filter (fun x => u < x)).length < min k scores.length) ∧
      min k scores.length ≤ (scores.filter (fun x => t ≤ x)).length := by
  have hl : 0 < scores.length := List.length_pos_iff.2 hs
  have hj : min k scores.length - 1 < (sortDesc id scores).length := by
    rw [length_sortDesc]; omega
  refine ⟨_, pyGet_ok hj, ?_, ?_⟩
  · intro u
    rw [getElem_le_iff (sortDesc_pairwise id scores) hj,
      ((sortDesc_perm id scores).filter _).length_eq]
    omega
  · have := succ_le_length_filter_ge (sortDesc_pairwise id scores) hj
    rw [((sortDesc_perm id scores).filter _).length_eq] at this
    omega

/-- Bounds of the scores of one word. -/
theorem score_bounds (ns : List ℤ) (normalize : Bool) (q w : List Char) :
    List.Forall₂ (fun a b => 0 ≤ a ∧ a ≤ b) (lowerVec ns normalize q w) (scoreVec ns normalize q w) ∧
    List.Forall₂ (fun a b => 0 ≤ a ∧ a ≤ b) (scoreVec ns normalize q w)
      ((lowerVec ns normalize q w).map (fun x => x * 2)) ∧
    List.Forall₂ (fun a b => 0 ≤ a ∧ a ≤ b) (lowerVec ns normalize q w)
      ((lowerVec ns normalize q w).map (fun x => x * 2)) := by
  have key : ∀ n, 0 ≤ (if normalize then commonN n q w / denom n q w else commonN n q w) ∧
      (if normalize then commonN n q w / denom n q w else commonN n q w) ≤ scoreN normalize n q w ∧
      scoreN normalize n q w ≤
        (if normalize then commonN n q w / denom n q w else commonN n q w) * 2 := by
    intro n
    have h0 := commonN_nonneg n q w
    have h1 := commonN_le_simN n q w
    have h2 := simN_le_two_commonN n q w
    cases normalize with
    | false => simp only [Bool.false_eq_true, if_false, scoreN]; exact ⟨h0, h1, h2⟩
    | true =>
      simp only [if_true, scoreN]
      by_cases hs : Shares n q w
      · have hd : (0 : ℚ) < denom n q w := by exact_mod_cast denom_pos_of_shares hs
        refine ⟨div_nonneg h0 hd.le, div_le_div_of_nonneg_right h1 hd.le, ?_⟩
        rw [div_mul_eq_mul_div]
        exact div_le_div_of_nonneg_right h2 hd.le
      · obtain ⟨e1, e2⟩ := not_shares_sums hs
        rw [e1, e2]; simp
  unfold lowerVec scoreVec
  refine ⟨?_, ?_, ?_⟩
  · rw [List.forall₂_map_left_iff, List.forall₂_map_right_iff, List.forall₂_same]
    intro n _
    exact ⟨(key n).1, (key n).2.1⟩
  · rw [List.map_map, List.forall₂_map_left_iff, List.forall₂_map_right_iff, List.forall₂_same]
    intro n _
    exact ⟨le_trans (key n).1 (key n).2.1, (key n).2.2⟩
  · rw [List.map_map, List.forall₂_map_left_iff, List.forall₂_map_right_iff, List.forall₂_same]
    intro n _
    exact ⟨(key n).1, le_trans (key n).2.1 (key n).2.2⟩

/-- Words that survive the pruning. -/
def WL.unpruned (agg : List ℚ → S) (st : WL) (q : List Char) (k : ℕ) (normalize : Bool) :
    List (List Char × ℕ) :=
  (st.eligible q).filter (fun p =>
    ¬ Outranked agg st.nList st.filterN normalize q st.wordList k p.1)

theorem lookupSimilarity_spec (hi : WLInv cf st) {agg : List ℚ → S} (hagg : MonotoneAgg agg)
    (q : List Char) {k : ℕ} (hk : 1 ≤ k) (normalize : Bool) :
    (LookupFails agg st.nList st.filterN normalize st.wordList k q →
      st.lookupSimilarity agg q k normalize = .error .zeroDivisionError) ∧
    (¬ LookupFails agg st.nList st.filterN normalize st.wordList k q →
      ∃ scored, st.lookupSimilarity agg q k normalize = .ok scored ∧
        scored.Perm ((st.unpruned agg q k normalize).map
          (fun p => (p.2, agg (scoreVec st.nList normalize q p.1)))) ∧
        ∃ t : S, (∀ p ∈ st.eligible q, p ∉ st.unpruned agg q k normalize →
            agg (scoreVec st.nList normalize q p.1) < t) ∧
          min k (st.eligible q).length ≤ ((st.unpruned agg q k normalize).filter
            (fun p => t ≤ agg (scoreVec st.nList normalize q p.1))).length) := by
  obtain ⟨ms, hms, hperm⟩ := minScores_perm hi q normalize
  have hlen : ms.length = (st.eligible q).length := by rw [hperm.length_eq, List.length_map]
  unfold WL.lookupSimilarity
  simp only [hms, bind, Except.bind]
  rw [if_neg (not_not.2 hk)]
  simp only [pure, Except.pure]
  by_cases he : ms.length = 0
  · have h0 : st.eligible q = [] := by rw [← List.length_eq_zero_iff, ← hlen, he]
    have hno : ¬ ∃ w ∈ st.wordList, Eligible st.nList st.filterN q w := by
      rintro ⟨w, hw, hel⟩
      obtain ⟨i, h, rfl⟩ := List.getElem_of_mem hw
      have : (st.wordList[i], i) ∈ st.eligible q := mem_eligible.2 ⟨by simp [h], hel⟩
      rw [h0] at this; cases this
    simp only [if_pos he]
    constructor
    · intro h; exact absurd h.1 hno
    · intro _
      have hu : st.unpruned agg q k normalize = [] := by unfold WL.unpruned; rw [h0]; rfl
      refine ⟨[], rfl, by rw [hu]; exact List.Perm.refl _, agg [], ?_, ?_⟩
      · rw [h0]; intro p hp; cases hp
      · rw [h0]; simp
  · simp only [if_neg he]
    have hne : ms.map (fun p => agg p.2) ≠ [] := by
      rw [Ne, List.map_eq_nil_iff]; rintro rfl; exact he rfl
    obtain ⟨t, ht, ht1, ht2⟩ := minAcceptable_spec (k := k) hk hne
    simp only [ht]
    rw [List.length_map, hlen] at ht2
    simp only [List.length_map, hlen] at ht1
    -- scores as a function of the eligible words
    have hcount : ∀ P : S → Prop, ∀ [DecidablePred P],
        ((ms.map (fun p => agg p.2)).filter (fun x => P x)).length =
          ((st.eligible q).filter (fun p => P (agg (lowerVec st.nList normalize q p.1)))).length := by
      intro P _
      rw [((hperm.map _).filter _).length_eq, List.map_map, List.filter_map, List.length_map]
      rfl
    have hcount2 : ∀ P : S → Prop, ∀ [DecidablePred P],
        ((st.eligible q).filter (fun p => P (agg (lowerVec st.nList normalize q p.1)))).length =
        ((eligibleWords st.nList st.filterN q st.wordList).filter
          (fun w => P (agg (lowerVec st.nList normalize q w)))).length := by
      intro P _
      rw [← eligible_map_fst, List.filter_map, List.length_map]
      rfl
    have hout : ∀ p ∈ st.eligible q,
        (t ≤ agg ((lowerVec st.nList normalize q p.1).map (fun x => x * 2)) ↔
          ¬ Outranked agg st.nList st.filterN normalize q st.wordList k p.1) := by
      intro p hp
      rw [ht1, hcount (fun x => agg ((lowerVec st.nList normalize q p.1).map (fun x => x * 2)) < x)]
      unfold Outranked
      rw [← hcount2 (fun x => agg ((lowerVec st.nList normalize q p.1).map (fun x => x * 2)) < x),
        not_le]
      have hlt : ((st.eligible q).filter (fun p' =>
          agg ((lowerVec st.nList normalize q p.1).map (fun x => x * 2)) <
            agg (lowerVec st.nList normalize q p'.1))).length < (st.eligible q).length := by
        rw [List.length_filter_lt_length_iff_exists]
        refine ⟨p, hp, ?_⟩
        simpa using hagg _ _ (score_bounds st.nList normalize q p.1).2.2
      omega
    have hsurv : ∀ oi, oi ∈ survivors agg ms t ↔
        ∃ w, (w, oi) ∈ st.unpruned agg q k normalize := by
      intro oi
      unfold survivors
      rw [List.mem_map]
      constructor
      · rintro ⟨⟨i, v⟩, hm, rfl⟩
        rw [List.mem_filter] at hm
        obtain ⟨hm, hle⟩ := hm
        obtain ⟨p, hp, hpe⟩ := List.mem_map.1 (hperm.mem_iff.1 hm)
        injection hpe with h1 h2
        subst h1 h2
        refine ⟨p.1, ?_⟩
        unfold WL.unpruned
        rw [List.mem_filter]
        refine ⟨hp, ?_⟩
        rw [decide_eq_true_eq, ← hout p hp]
        simpa using hle
      · rintro ⟨w, hw⟩
        unfold WL.unpruned at hw
        rw [List.mem_filter, decide_eq_true_eq] at hw
        have := (hout _ hw.1).2 hw.2
        refine ⟨(oi, lowerVec st.nList normalize q w), ?_, rfl⟩
        rw [List.mem_filter]
        refine ⟨hperm.mem_iff.2 (List.mem_map.2 ⟨_, hw.1, rfl⟩), ?_⟩
        simpa using this
    have hex : ∃ w ∈ st.wordList, Eligible st.nList st.filterN q w := by
      have : st.eligible q ≠ [] := by
        intro h; rw [h] at hlen; exact he hlen
      obtain ⟨⟨w, i⟩, hp⟩ := List.exists_mem_of_ne_nil _ this
      obtain ⟨h1, h2⟩ := mem_eligible.1 hp
      exact ⟨w, List.mem_of_getElem? h1, h2⟩
    by_cases hone : ∃ n ∈ st.nList, (gramsOf n q).length = 1
    · have hone' : ∃ n ∈ st.nList, (getNGrams q n).length = 1 := by
        obtain ⟨n, hn, h⟩ := hone
        exact ⟨n, hn, by rw [getNGrams_eq_gramsOf]; exact h⟩
      rw [matchScores_error q _ hone']
      exact ⟨fun _ => rfl, fun h => absurd ⟨hex, Or.inl hone⟩ h⟩
    · have hone' : ∀ n ∈ st.nList, (getNGrams q n).length ≠ 1 := by
        intro n hn h
        exact hone ⟨n, hn, by rw [← getNGrams_eq_gramsOf]; exact h⟩
      obtain ⟨sc, hsc, hscn, hscm⟩ := matchScores_spec hi q (survivors agg ms t) hone'
      simp only [hsc]
      -- rows of the second pass
      have hrow : ∀ oi v, (oi, v) ∈ sc ↔ ∃ w, (w, oi) ∈ st.unpruned agg q k normalize ∧
          v = st.nList.map (fun n => simN n q w) := by
        intro oi v
        rw [hscm, hsurv]
        constructor
        · rintro ⟨⟨w, hw⟩, w', hw', _, rfl⟩
          have h1 := hw
          unfold WL.unpruned at h1
          rw [List.mem_filter] at h1
          obtain ⟨h2, _⟩ := mem_eligible.1 h1.1
          rw [h2] at hw'
          injection hw' with hw'
          subst hw'
          exact ⟨w, hw, rfl⟩
        · rintro ⟨w, hw, rfl⟩
          have h1 := hw
          unfold WL.unpruned at h1
          rw [List.mem_filter] at h1
          obtain ⟨h2, h3⟩ := mem_eligible.1 h1.1
          exact ⟨⟨w, hw⟩, w, h2, h3.2, rfl⟩
      have hscp : sc.Perm ((st.unpruned agg q k normalize).map
          (fun p => (p.2, st.nList.map (fun n => simN n q p.1)))) := by
        refine (List.perm_ext_iff_of_nodup (List.Nodup.of_map _ hscn) ?_).2 ?_
        · apply List.Nodup.of_map Prod.fst
          rw [List.map_map]
          exact (List.Sublist.map Prod.snd List.filter_sublist).nodup (nodup_eligible_snd q)
        · rintro ⟨oi, v⟩
          rw [hrow, List.mem_map]
          constructor
          · rintro ⟨w, hw, rfl⟩; exact ⟨(w, oi), hw, rfl⟩
          · rintro ⟨⟨w, i⟩, hm, he⟩
            injection he with h4 h5
            subst h4
            exact ⟨w, hm, h5.symm⟩
      have hunp : ∀ p ∈ st.unpruned agg q k normalize, st.wordList[p.2]? = some p.1 ∧
          Eligible st.nList st.filterN q p.1 ∧
          ¬ Outranked agg st.nList st.filterN normalize q st.wordList k p.1 := by
        rintro ⟨w, i⟩ hp
        unfold WL.unpruned at hp
        rw [List.mem_filter, decide_eq_true_eq] at hp
        obtain ⟨h2, h3⟩ := mem_eligible.1 hp.1
        exact ⟨h2, h3, hp.2⟩
      have hnorm : ∀ r ∈ sc, ∃ p ∈ st.unpruned agg q k normalize, p.2 = r.1 ∧
          st.normalizeRow q normalize r =
          if normalize = true ∧ ∃ n ∈ st.nList, denom n q p.1 = 0 then .error .zeroDivisionError
          else .ok (p.2, scoreVec st.nList normalize q p.1) := by
        rintro ⟨oi, v⟩ hr
        obtain ⟨w, hw, rfl⟩ := (hrow oi v).1 hr
        exact ⟨(w, oi), hw, rfl, normalizeRow_spec hi q normalize (hunp _ hw).1⟩
      by_cases hden : normalize = true ∧ ∃ w ∈ st.wordList, Eligible st.nList st.filterN q w ∧
          ¬ Outranked agg st.nList st.filterN normalize q st.wordList k w ∧
          ∃ n ∈ st.nList, denom n q w = 0
      · constructor
        · intro _
          have : sc.mapM (st.normalizeRow q normalize) = .error .zeroDivisionError := by
            apply mapM_error
            · obtain ⟨hn, w, hw, hel, hno, n, hnn, hd⟩ := hden
              obtain ⟨i, h, rfl⟩ := List.getElem_of_mem hw
              have hp : (st.wordList[i], i) ∈ st.unpruned agg q k normalize := by
                unfold WL.unpruned
                rw [List.mem_filter, decide_eq_true_eq]
                exact ⟨mem_eligible.2 ⟨by simp [h], hel⟩, hno⟩
              refine ⟨_, (hrow _ _).2 ⟨_, hp, rfl⟩, ?_⟩
              rw [normalizeRow_spec hi q normalize (by simp [h] : st.wordList[i]? = some st.wordList[i]),
                if_pos ⟨hn, n, hnn, hd⟩]
            · intro r hr
              obtain ⟨p, _, _, he⟩ := hnorm r hr
              rw [he]
              split
              · exact Or.inl rfl
              · exact Or.inr ⟨_, rfl⟩
          rw [this]
        · intro h
          exact absurd ⟨hex, Or.inr hden⟩ h
      · constructor
        · rintro ⟨_, h | h⟩
          · exact absurd h hone
          · exact absurd h hden
        · intro _
          have hrowok : ∀ w i, (w, i) ∈ st.unpruned agg q k normalize →
              st.normalizeRow q normalize (i, st.nList.map (fun n => simN n q w)) =
                .ok (i, scoreVec st.nList normalize q w) := by
            intro w i hp
            obtain ⟨h1, h2, h3⟩ := hunp _ hp
            rw [normalizeRow_spec hi q normalize h1, if_neg]
            rintro ⟨hn, n, hnn, hd⟩
            exact hden ⟨hn, w, List.mem_of_getElem? h1, h2, h3, n, hnn, hd⟩
          -- the normalised rows, as a function of the raw rows
          let wordAt : ℕ → List Char := fun i => st.wordList.getD i []
          have hmap : sc.mapM (st.normalizeRow q normalize) =
              .ok (sc.map (fun r => (r.1, scoreVec st.nList normalize q (wordAt r.1)))) := by
            apply mapM_ok
            rintro ⟨oi, v⟩ hr
            obtain ⟨w, hw, rfl⟩ := (hrow oi v).1 hr
            have hwa : wordAt oi = w := by
              simp only [wordAt, List.getD_eq_getElem?_getD, (hunp _ hw).1, Option.getD_some]
            simp only [hwa]
            exact hrowok w oi hw
          rw [hmap]
          refine ⟨_, rfl, ?_, t, ?_, ?_⟩
          · rw [List.map_map]
            refine (hscp.map _).trans ?_
            rw [List.map_map]
            refine List.Perm.of_eq (List.map_congr_left ?_)
            rintro ⟨w, i⟩ hp
            have hwa : wordAt i = w := by
              simp only [wordAt, List.getD_eq_getElem?_getD, (hunp _ hp).1, Option.getD_some]
            simp only [Function.comp_def, hwa]
          · intro p hp hn
            have hle : ¬ t ≤ agg ((lowerVec st.nList normalize q p.1).map (fun x => x * 2)) := by
              rw [hout p hp]
              intro h
              apply hn
              unfold WL.unpruned
              rw [List.mem_filter, decide_eq_true_eq]
              exact ⟨hp, h⟩
            exact lt_of_le_of_lt (hagg _ _ (score_bounds st.nList normalize q p.1).2.1)
              (not_le.1 hle)
          · refine le_trans ht2 ?_
            rw [hcount (fun x => t ≤ x)]
            unfold WL.unpruned
            rw [List.filter_filter]
            rw [← List.countP_eq_length_filter, ← List.countP_eq_length_filter]
            apply List.countP_mono_left
            intro p hp hle
            rw [decide_eq_true_eq] at hle
            have h1 := hagg _ _ (score_bounds st.nList normalize q p.1).1
            have h2 := hagg _ _ (score_bounds st.nList normalize q p.1).2.2
            have h3 := (hout p hp).1 (le_trans hle h2)
            simp [h3, le_trans hle h1]

omit [LinearOrder S] in
theorem rescore_ok (hi : WLInv cf st) {q : List Char} (hq : Clean q) (normalize : Bool) {i : ℕ}
    {w : List Char} (hw : st.wordList[i]? = some w) (s : S) :
    ∃ x, nmd (.str q) (.str w) (.int 2) true normalize = .ok x ∧
      st.rescore q normalize (i, s) = .ok (i, toLex (s, x)) := by
  have hc : Clean w := (hi.words w (List.mem_of_getElem? hw)).1
  have hx : ∃ x, nmd (.str q) (.str w) (.int 2) true normalize = .ok x := by
    rw [nmd_valid hq hc (le_refl 2)]
    have : countInt 2 q + countInt 2 w ≠ 0 := by unfold countInt; omega
    cases normalize
    · exact ⟨_, rfl⟩
    · simp only [if_true, if_neg this]; exact ⟨_, rfl⟩
  obtain ⟨x, hx⟩ := hx
  refine ⟨x, hx, ?_⟩
  unfold WL.rescore
  simp only [pyGet_ok' hw, bind, Except.bind, hx, pure, Except.pure]

/-- What a successful lookup returns. -/
structure LookupResult (agg : List ℚ → S) (ns : List ℤ) (filterN : ℤ) (normalize : Bool)
    (words : List (List Char)) (k : ℕ) (q : List Char)
    (res : List (List Char × (S ×ₗ ℚ))) : Prop where
  /-- distinct words -/
  nodup : (res.map Prod.fst).Nodup
  /-- stored, eligible words with their exact scores -/
  scores : ∀ r ∈ res, r.1 ∈ words ∧ Eligible ns filterN q r.1 ∧
    (ofLex r.2).1 = agg (scoreVec ns normalize q r.1) ∧
    nmd (.str q) (.str r.1) (.int 2) true normalize = .ok (ofLex r.2).2
  /-- as many as possible up to `k` -/
  length : res.length = min k (eligibleWords ns filterN q words).length
  /-- best first -/
  sorted : res.Pairwise (fun a b => b.2 ≤ a.2)
  /-- nothing better was left out -/
  best : ∀ w ∈ words, Eligible ns filterN q w → w ∉ res.map Prod.fst →
    ∀ r ∈ res, agg (scoreVec ns normalize q w) ≤ (ofLex r.2).1

theorem checkLookup_ok {q w : List Char} {k : ℤ} (hw : w ≠ []) (hk : 0 < k)
    (hf : st.fold cf w = q) (hq : Clean q) :
    st.checkLookup cf (.str w) (.int k) = .ok (q, k.toNat) := by
  have h1 : w.length ≠ 0 := by simpa using hw
  have h2 : ¬ ('\x02' ∈ q ∨ '\x03' ∈ q) := by
    rintro (h | h)
    · exact hq.1 h
    · exact hq.2 h
  simp only [WL.checkLookup, if_neg h1, if_neg (not_le.2 hk), hf, if_neg h2]

theorem lookup_spec (hi : WLInv cf st) {agg : List ℚ → S} (hagg : MonotoneAgg agg)
    {w q : List Char} {k : ℤ} (hw : w ≠ []) (hk : 0 < k) (hf : st.fold cf w = q) (hq : Clean q)
    (normalize : Bool) :
    (LookupFails agg st.nList st.filterN normalize st.wordList k.toNat q →
      st.lookup agg cf (.str w) (.int k) normalize = .error .zeroDivisionError) ∧
    (¬ LookupFails agg st.nList st.filterN normalize st.wordList k.toNat q →
      ∃ res, st.lookup agg cf (.str w) (.int k) normalize = .ok res ∧
        LookupResult agg st.nList st.filterN normalize st.wordList k.toNat q res) := by
  have hk' : 1 ≤ k.toNat := by omega
  obtain ⟨h1, h2⟩ := lookupSimilarity_spec hi hagg q hk' normalize
  unfold WL.lookup
  rw [checkLookup_ok hw hk hf hq]
  simp only [bind, Except.bind]
  constructor
  · intro h
    rw [h1 h]
  · intro h
    obtain ⟨scored, hsc, hperm, t, hlow, hmany⟩ := h2 h
    rw [hsc]
    simp only
    generalize hK : k.toNat = K at *
    -- words and secondary scores by index
    let wordAt : ℕ → List Char := fun i => st.wordList.getD i []
    let sec : ℕ → ℚ := fun i =>
      match nmd (.str q) (.str (wordAt i)) (.int 2) true normalize with
      | .ok x => x
      | .error _ => 0
    let prim : ℕ → S := fun i => agg (scoreVec st.nList normalize q (wordAt i))
    have hmem : ∀ p ∈ scored, (wordAt p.1, p.1) ∈ st.unpruned agg q K normalize ∧
        st.wordList[p.1]? = some (wordAt p.1) ∧ Eligible st.nList st.filterN q (wordAt p.1) ∧
        p.2 = prim p.1 := by
      intro p hp
      obtain ⟨⟨v, i⟩, hp', rfl⟩ := List.mem_map.1 (hperm.mem_iff.1 hp)
      have hp2 := hp'
      unfold WL.unpruned at hp'
      rw [List.mem_filter] at hp'
      obtain ⟨h3, h4⟩ := mem_eligible.1 hp'.1
      have hwa : wordAt i = v := by
        simp only [wordAt, List.getD_eq_getElem?_getD, h3, Option.getD_some]
      simp only [prim, hwa]
      exact ⟨hp2, h3, h4, trivial⟩
    have hnd : (scored.map Prod.fst).Nodup := by
      rw [(hperm.map Prod.fst).nodup_iff, List.map_map]
      exact (List.Sublist.map Prod.snd List.filter_sublist).nodup (nodup_eligible_snd q)
    have hsecok : ∀ i v, st.wordList[i]? = some v → ∀ s : S,
        nmd (.str q) (.str v) (.int 2) true normalize = .ok (sec i) ∧
        st.rescore q normalize (i, s) = .ok (i, toLex (s, sec i)) := by
      intro i v hv s
      have hwa : wordAt i = v := by
        simp only [wordAt, List.getD_eq_getElem?_getD, hv, Option.getD_some]
      obtain ⟨x, hx, hr⟩ := rescore_ok hi hq normalize hv s
      have : sec i = x := by simp only [sec, hwa, hx]
      rw [this]; exact ⟨hx, hr⟩
    have hA : ∀ p ∈ mostCommon scored (K * 2), p ∈ scored := fun p hp =>
      mem_of_mem_take_sortDesc hp
    rw [mapM_ok (g := fun p : ℕ × S => (p.1, toLex (p.2, sec p.1))) _ (fun p hp =>
      (hsecok p.1 _ (hmem p (hA p hp)).2.1 p.2).2)]
    simp only
    set items := (mostCommon scored (K * 2)).map
      (fun p : ℕ × S => (p.1, (toLex (p.2, sec p.1) : S ×ₗ ℚ))) with hitems
    have hB : ∀ p ∈ mostCommon items K, ∃ r ∈ mostCommon scored (K * 2),
        p = (r.1, toLex (r.2, sec r.1)) := by
      intro p hp
      obtain ⟨r, hr, he⟩ := List.mem_map.1 (mem_of_mem_take_sortDesc hp : p ∈ items)
      exact ⟨r, hr, he.symm⟩
    rw [mapM_ok (g := fun p : ℕ × (S ×ₗ ℚ) => (wordAt p.1, p.2)) _ (by
      intro p hp
      obtain ⟨r, hr, rfl⟩ := hB p hp
      rw [pyGet_ok' (hmem r (hA r hr)).2.1]; rfl)]
    refine ⟨_, rfl, ?_⟩
    -- distinct words
    have hinj : ∀ p ∈ scored, ∀ p' ∈ scored, wordAt p.1 = wordAt p'.1 → p.1 = p'.1 := by
      intro p hp p' hp' he
      have h3 := (hmem p hp).2.1
      have h4 := (hmem p' hp').2.1
      rw [← he] at h4
      have l3 := (List.getElem?_eq_some_iff.1 h3).1
      exact (List.getElem?_inj l3 hi.nodupW).1 (h3.trans h4.symm)
    have hitemsnd : (items.map Prod.fst).Nodup := by
      rw [hitems, List.map_map]
      exact nodup_take_sortDesc (f := Prod.fst) _ hnd
    have hresnd : ((mostCommon items K).map Prod.fst).Nodup :=
      nodup_take_sortDesc (f := Prod.fst) _ hitemsnd
    have hlenS : scored.length = (st.unpruned agg q K normalize).length := by
      rw [hperm.length_eq, List.length_map]
    have hunple : (st.unpruned agg q K normalize).length ≤ (st.eligible q).length :=
      List.length_filter_le _ _
    have helen : (st.eligible q).length = (eligibleWords st.nList st.filterN q st.wordList).length := by
      rw [← eligible_map_fst, List.length_map]
    have hge : min K (st.eligible q).length ≤ scored.length := by
      rw [hlenS]; exact le_trans hmany (List.length_filter_le _ _)
    have hlen : (mostCommon items K).length = min K (st.eligible q).length := by
      have e1 : (mostCommon items K).length = min K items.length := length_take_sortDesc _ _ _
      have e2 : items.length = min (K * 2) scored.length := by
        rw [hitems, List.length_map]; exact length_take_sortDesc _ _ _
      rw [e1, e2]
      omega
    -- scored but not returned is dominated
    have hdom : ∀ p ∈ scored, p.1 ∉ (mostCommon items K).map Prod.fst →
        ∀ r ∈ mostCommon items K, p.2 ≤ (ofLex r.2).1 := by
      intro p hp hn r hr
      by_cases hpm : p ∈ mostCommon scored (K * 2)
      · have hpi : ((p.1, toLex (p.2, sec p.1)) : ℕ × (S ×ₗ ℚ)) ∈ items :=
          List.mem_map.2 ⟨p, hpm, rfl⟩
        have hni : ((p.1, toLex (p.2, sec p.1)) : ℕ × (S ×ₗ ℚ)) ∉ mostCommon items K :=
          fun h' => hn (List.mem_map.2 ⟨_, h', rfl⟩)
        have := top_dominates (key := Prod.snd) hr hpi hni
        simp only at this
        rcases (Prod.Lex.le_iff (x := toLex (p.2, sec p.1)) (y := r.2)).1 this with h' | h'
        · exact le_of_lt h'
        · exact le_of_eq h'.1
      · obtain ⟨r', hr', rfl⟩ := hB r hr
        exact top_dominates (key := Prod.snd) hr' hp hpm
    -- every returned score reaches the threshold
    have hthr : ∀ r ∈ mostCommon items K, t ≤ (ofLex r.2).1 := by
      intro r hr
      by_contra hlt
      rw [not_le] at hlt
      -- all good words are returned, and `r` on top
      let good := (st.unpruned agg q K normalize).filter
        (fun p => t ≤ agg (scoreVec st.nList normalize q p.1))
      have hgnd : (good.map Prod.snd).Nodup :=
        (List.Sublist.map Prod.snd (List.filter_sublist.trans List.filter_sublist)).nodup
          (nodup_eligible_snd q)
      have hsub : ∀ i ∈ r.1 :: good.map Prod.snd, i ∈ (mostCommon items K).map Prod.fst := by
        intro i hin
        rcases List.mem_cons.1 hin with rfl | hin
        · exact List.mem_map.2 ⟨r, hr, rfl⟩
        · obtain ⟨⟨v, j⟩, hj, rfl⟩ := List.mem_map.1 hin
          obtain ⟨hj1, hj2⟩ := List.mem_filter.1 hj
          rw [decide_eq_true_eq] at hj2
          have hsj : (j, agg (scoreVec st.nList normalize q v)) ∈ scored :=
            hperm.mem_iff.2 (List.mem_map.2 ⟨_, hj1, rfl⟩)
          by_contra hn
          have := hdom _ hsj hn r hr
          exact absurd (le_trans hj2 this) (not_le.2 hlt)
      have hrn : r.1 ∉ good.map Prod.snd := by
        intro hin
        obtain ⟨⟨v, j⟩, hj, hj3⟩ := List.mem_map.1 hin
        simp only at hj3
        subst hj3
        obtain ⟨hj1, hj2⟩ := List.mem_filter.1 hj
        rw [decide_eq_true_eq] at hj2
        obtain ⟨r', hr', he⟩ := hB r hr
        have hr1 : r.1 = r'.1 := by rw [he]
        have hr2 : (ofLex r.2).1 = r'.2 := by rw [he]; rfl
        have h3 := (hmem r' (hA r' hr'))
        have h4 := (hmem _ (hperm.mem_iff.2 (List.mem_map.2 ⟨_, hj1, rfl⟩))).2.2.2
        simp only at h4
        rw [h4, hr1, ← h3.2.2.2, ← hr2] at hj2
        exact absurd hj2 (not_le.2 hlt)
      have hle := (List.subperm_of_subset (List.nodup_cons.2 ⟨hrn, hgnd⟩) hsub).length_le
      rw [List.length_cons, List.length_map, List.length_map, hlen] at hle
      have : min K (st.eligible q).length ≤ good.length := hmany
      omega
    refine ⟨?_, ?_, ?_, ?_, ?_⟩
    · rw [List.map_map]
      have : (mostCommon items K).map (Prod.fst ∘ fun p : ℕ × (S ×ₗ ℚ) => (wordAt p.1, p.2)) =
          ((mostCommon items K).map Prod.fst).map wordAt := by
        rw [List.map_map]; rfl
      rw [this]
      apply List.Nodup.map_on _ hresnd
      intro a ha b hb he
      obtain ⟨p, hp, rfl⟩ := List.mem_map.1 ha
      obtain ⟨p', hp', rfl⟩ := List.mem_map.1 hb
      obtain ⟨r, hr, rfl⟩ := hB p hp
      obtain ⟨r', hr', rfl⟩ := hB p' hp'
      exact hinj r (hA r hr) r' (hA r' hr') he
    · intro r hr
      obtain ⟨p, hp, rfl⟩ := List.mem_map.1 hr
      obtain ⟨r', hr', rfl⟩ := hB p hp
      obtain ⟨_, h4, h5, h6⟩ := hmem r' (hA r' hr')
      exact ⟨List.mem_of_getElem? h4, h5, h6, (hsecok _ _ h4 r'.2).1⟩
    · rw [List.length_map, hlen, helen]
    · rw [List.pairwise_map]
      exact (sortDesc_pairwise Prod.snd items).sublist (List.take_sublist _ _)
    · intro v hv hel hn r hr
      obtain ⟨p, hp, rfl⟩ := List.mem_map.1 hr
      obtain ⟨i, hil, rfl⟩ := List.getElem_of_mem hv
      have hwi : st.wordList[i]? = some st.wordList[i] := by simp [hil]
      have hwa : wordAt i = st.wordList[i] := by
        simp only [wordAt, List.getD_eq_getElem?_getD, hwi, Option.getD_some]
      have hie : (st.wordList[i], i) ∈ st.eligible q := mem_eligible.2 ⟨hwi, hel⟩
      by_cases hu : (st.wordList[i], i) ∈ st.unpruned agg q K normalize
      · have hs : (i, agg (scoreVec st.nList normalize q st.wordList[i])) ∈ scored :=
          hperm.mem_iff.2 (List.mem_map.2 ⟨_, hu, rfl⟩)
        refine hdom _ hs ?_ p hp
        intro h'
        apply hn
        obtain ⟨p', hp', he⟩ := List.mem_map.1 h'
        simp only at he
        rw [List.map_map]
        refine List.mem_map.2 ⟨p', hp', ?_⟩
        simp only [Function.comp_def, he, hwa]
      · have h7 := hlow _ hie hu
        have h8 := hthr p hp
        simp only at h7
        exact le_trans h7.le h8

end Verif
