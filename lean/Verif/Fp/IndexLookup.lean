import Verif.Fp.IndexAccum

/-!
# The whole lookup in rounded arithmetic
-/

namespace Verif
namespace Fp

open GramSpec IndexSpec

variable {R : Rounding} {cf : List Char → List Char} {st stF : WL} {S : Type} [LinearOrder S]

/-- The condition under which the lookup raises, given the threshold. -/
def RaisesF (R : Rounding) (agg : List ℚ → S) (ns : List ℤ) (filterN : ℤ) (normalize : Bool)
    (words : List (List Char)) (q : List Char) (t : S) : Prop :=
  (∃ n ∈ ns, (gramsOf n q).length = 1) ∨
  (normalize = true ∧ ∃ w ∈ words, Eligible ns filterN q w ∧
    t ≤ agg ((lowerVecF R ns normalize q w).map (fun x => R.fl (x * 2))) ∧ ∃ n ∈ ns, denom n q w = 0)

/-- Eligible words that pass the threshold, with their indices. -/
def keptF (R : Rounding) (agg : List ℚ → S) (st : WL) (q : List Char) (normalize : Bool) (t : S) :
    List (List Char × ℕ) :=
  (st.eligible q).filter (fun p =>
    t ≤ agg ((lowerVecF R st.nList normalize q p.1).map (fun x => R.fl (x * 2))))

theorem mem_keptF {agg : List ℚ → S} {q : List Char} {normalize : Bool} {t : S} {w : List Char}
    {i : ℕ} : (w, i) ∈ keptF R agg st q normalize t ↔
      st.wordList[i]? = some w ∧ Eligible st.nList st.filterN q w ∧
      t ≤ agg ((lowerVecF R st.nList normalize q w).map (fun x => R.fl (x * 2))) := by
  unfold keptF
  rw [List.mem_filter, mem_eligible, decide_eq_true_eq, and_assoc]

theorem nodup_keptF_snd (agg : List ℚ → S) (q : List Char) (normalize : Bool) (t : S) :
    ((keptF R agg st q normalize t).map Prod.snd).Nodup :=
  (List.Sublist.map Prod.snd List.filter_sublist).nodup (nodup_eligible_snd q)

theorem Rounded.eqs (h : Rounded R st stF) : stF.nList = st.nList ∧ stF.wordList = st.wordList ∧
    stF.filterN = st.filterN ∧ stF.caseInsensitive = st.caseInsensitive := by
  obtain ⟨Q, rfl, _⟩ := h
  exact ⟨rfl, rfl, rfl, rfl⟩

/-- The threshold does not depend on the order of the scores. -/
theorem minAcceptable_perm (k : ℕ) {l l' : List S} (h : l.Perm l') :
    minAcceptable l k = minAcceptable l' k := by
  have e : sortDesc id l = sortDesc id l' := by
    apply ((sortDesc_perm id l).trans (h.trans (sortDesc_perm id l').symm)).eq_of_pairwise
      (le := fun a b => b ≤ a) (fun a b _ _ h1 h2 => le_antisymm h2 h1)
    · exact sortDesc_pairwise id l
    · exact sortDesc_pairwise id l'
  unfold minAcceptable
  rw [e, h.length_eq]

theorem lookupSimilarityF_spec (hi : WLInv cf st) (hR : Rounded R st stF) (agg : List ℚ → S)
    (q : List Char) {k : ℕ} (hk : 1 ≤ k) (normalize : Bool) :
    (st.eligible q = [] ∧ lookupSimilarityF R agg stF q k normalize = .ok []) ∨
    ∃ t, (minAcceptable ((st.eligible q).map
        (fun p => agg (lowerVecF R st.nList normalize q p.1))) k = .ok t ∧
        ∃ p ∈ st.eligible q, t = agg (lowerVecF R st.nList normalize q p.1)) ∧
      min k (st.eligible q).length ≤
        ((st.eligible q).filter (fun p => t ≤ agg (lowerVecF R st.nList normalize q p.1))).length ∧
      (RaisesF R agg st.nList st.filterN normalize st.wordList q t →
        lookupSimilarityF R agg stF q k normalize = .error .zeroDivisionError) ∧
      (¬ RaisesF R agg st.nList st.filterN normalize st.wordList q t →
        ∃ scored, lookupSimilarityF R agg stF q k normalize = .ok scored ∧
          scored.Perm ((keptF R agg st q normalize t).map
            (fun p => (p.2, agg (scoreVecF R st.nList normalize q p.1))))) := by
  obtain ⟨ms, hms, hperm⟩ := minScoresF_perm (R := R) hi q normalize
  have hms' : minScoresF R stF q normalize = .ok ms := by
    obtain ⟨Q, rfl, _⟩ := hR; exact hms
  have hlen : ms.length = (st.eligible q).length := by rw [hperm.length_eq, List.length_map]
  unfold lookupSimilarityF
  simp only [hms', bind, Except.bind]
  rw [if_neg (not_not.2 hk)]
  simp only [pure, Except.pure]
  by_cases he : ms.length = 0
  · left
    exact ⟨by rw [← List.length_eq_zero_iff, ← hlen, he], by simp only [if_pos he]⟩
  · right
    simp only [if_neg he]
    have hne : ms.map (fun p => agg p.2) ≠ [] := by
      rw [Ne, List.map_eq_nil_iff]; rintro rfl; exact he rfl
    obtain ⟨t, ht, _, ht2⟩ := minAcceptable_spec (k := k) hk hne
    simp only [ht]
    have htm : t ∈ ms.map (fun p => agg p.2) := by
      unfold minAcceptable pyGet at ht
      split at ht
      · rename_i x hx
        injection ht with ht
        subst ht
        exact (sortDesc_perm id _).mem_iff.1 (List.mem_of_getElem? hx)
      · cases ht
    rw [List.length_map, hlen] at ht2
    refine ⟨t, ⟨?_, ?_⟩, ?_, ?_⟩
    · rw [← ht]
      have hp := hperm.map (fun p => agg p.2)
      rw [List.map_map] at hp
      exact (minAcceptable_perm k hp).symm
    · obtain ⟨r, hr, rfl⟩ := List.mem_map.1 htm
      obtain ⟨p, hp, rfl⟩ := List.mem_map.1 (hperm.mem_iff.1 hr)
      exact ⟨p, hp, rfl⟩
    · refine ht2.trans (le_of_eq ?_)
      rw [((hperm.map _).filter _).length_eq, List.map_map, List.filter_map, List.length_map]
      rfl
    have hsurv : ∀ oi, oi ∈ survivorsF R agg ms t ↔
        ∃ w, (w, oi) ∈ keptF R agg st q normalize t := by
      intro oi
      unfold survivorsF
      rw [List.mem_map]
      constructor
      · rintro ⟨⟨i, v⟩, hm, rfl⟩
        rw [List.mem_filter] at hm
        obtain ⟨hm, hle⟩ := hm
        obtain ⟨⟨w, j⟩, hp, hpe⟩ := List.mem_map.1 (hperm.mem_iff.1 hm)
        injection hpe with h1 h2
        subst h1 h2
        refine ⟨w, ?_⟩
        unfold keptF
        rw [List.mem_filter]
        exact ⟨hp, hle⟩
      · rintro ⟨w, hw⟩
        unfold keptF at hw
        rw [List.mem_filter] at hw
        refine ⟨(oi, lowerVecF R st.nList normalize q w), ?_, rfl⟩
        rw [List.mem_filter]
        exact ⟨hperm.mem_iff.2 (List.mem_map.2 ⟨_, hw.1, rfl⟩), hw.2⟩
    have hnl : stF.nList = st.nList := hR.eqs.1
    by_cases hone : ∃ n ∈ st.nList, (gramsOf n q).length = 1
    · have hone' : ∃ n ∈ stF.nList, (getNGrams q n).length = 1 := by
        obtain ⟨n, hn, h⟩ := hone
        exact ⟨n, by rw [hnl]; exact hn, by rw [getNGrams_eq_gramsOf]; exact h⟩
      rw [matchScoresF_error q _ hone']
      exact ⟨fun _ => rfl, fun h => absurd (Or.inl hone) h⟩
    · have hone' : ∀ n ∈ st.nList, (getNGrams q n).length ≠ 1 := by
        intro n hn h
        exact hone ⟨n, hn, by rw [← getNGrams_eq_gramsOf]; exact h⟩
      obtain ⟨sc, hsc, hscn, hscm⟩ := matchScoresF_spec hi hR q (survivorsF R agg ms t) hone'
      simp only [hsc]
      have hrow : ∀ oi v, (oi, v) ∈ sc ↔ ∃ w, (w, oi) ∈ keptF R agg st q normalize t ∧
          v = st.nList.map (fun n => simNF R n q w) := by
        intro oi v
        rw [hscm, hsurv]
        constructor
        · rintro ⟨⟨w, hw⟩, w', hw', _, rfl⟩
          have h2 := (mem_keptF.1 hw).1
          rw [h2] at hw'
          injection hw' with hw'
          subst hw'
          exact ⟨w, hw, rfl⟩
        · rintro ⟨w, hw, rfl⟩
          obtain ⟨h2, h3, _⟩ := mem_keptF.1 hw
          exact ⟨⟨w, hw⟩, w, h2, h3.2, rfl⟩
      have hscp : sc.Perm ((keptF R agg st q normalize t).map
          (fun p => (p.2, st.nList.map (fun n => simNF R n q p.1)))) := by
        refine (List.perm_ext_iff_of_nodup (List.Nodup.of_map _ hscn) ?_).2 ?_
        · apply List.Nodup.of_map Prod.fst
          rw [List.map_map]
          exact nodup_keptF_snd agg q normalize t
        · rintro ⟨oi, v⟩
          rw [hrow, List.mem_map]
          constructor
          · rintro ⟨w, hw, rfl⟩; exact ⟨(w, oi), hw, rfl⟩
          · rintro ⟨⟨w, i⟩, hm, he⟩
            injection he with h4 h5
            subst h4
            exact ⟨w, hm, h5.symm⟩
      by_cases hden : normalize = true ∧ ∃ w ∈ st.wordList, Eligible st.nList st.filterN q w ∧
          t ≤ agg ((lowerVecF R st.nList normalize q w).map (fun x => R.fl (x * 2))) ∧
          ∃ n ∈ st.nList, denom n q w = 0
      · refine ⟨fun _ => ?_, fun h => absurd (Or.inr hden) h⟩
        have : sc.mapM (normalizeRowF R stF q normalize) = .error .zeroDivisionError := by
          apply mapM_error
          · obtain ⟨hn, w, hw, hel, hno, n, hnn, hd⟩ := hden
            obtain ⟨i, h, rfl⟩ := List.getElem_of_mem hw
            have hwi : st.wordList[i]? = some st.wordList[i] := by simp [h]
            refine ⟨_, (hrow _ _).2 ⟨_, mem_keptF.2 ⟨hwi, hel, hno⟩, rfl⟩, ?_⟩
            rw [normalizeRowF_spec hi hR q normalize hwi, if_pos ⟨hn, n, hnn, hd⟩]
          · rintro ⟨oi, v⟩ hr
            obtain ⟨w, hw, rfl⟩ := (hrow oi v).1 hr
            rw [normalizeRowF_spec hi hR q normalize (mem_keptF.1 hw).1]
            split
            · exact Or.inl rfl
            · exact Or.inr ⟨_, rfl⟩
        rw [this]
      · refine ⟨?_, fun _ => ?_⟩
        · rintro (h | h)
          · exact absurd h hone
          · exact absurd h hden
        let wordAt : ℕ → List Char := fun i => st.wordList.getD i []
        have hwa : ∀ w i, (w, i) ∈ keptF R agg st q normalize t → wordAt i = w := by
          intro w i h
          simp only [wordAt, List.getD_eq_getElem?_getD, (mem_keptF.1 h).1, Option.getD_some]
        have hmap : sc.mapM (normalizeRowF R stF q normalize) =
            .ok (sc.map (fun r => (r.1, scoreVecF R st.nList normalize q (wordAt r.1)))) := by
          apply mapM_ok
          rintro ⟨oi, v⟩ hr
          obtain ⟨w, hw, rfl⟩ := (hrow oi v).1 hr
          simp only [hwa w oi hw]
          obtain ⟨h1, h2, h3⟩ := mem_keptF.1 hw
          rw [normalizeRowF_spec hi hR q normalize h1, if_neg]
          rintro ⟨hn, n, hnn, hd⟩
          exact hden ⟨hn, w, List.mem_of_getElem? h1, h2, h3, n, hnn, hd⟩
        rw [hmap]
        refine ⟨_, rfl, ?_⟩
        rw [List.map_map]
        refine (hscp.map _).trans ?_
        rw [List.map_map]
        refine List.Perm.of_eq (List.map_congr_left ?_)
        rintro ⟨w, i⟩ hp
        simp only [Function.comp_def, hwa w i hp]

/-- Selecting the best `2k` by the first score and then the best `k` by both scores. -/
theorem pick_spec {scored : List (ℕ × S)} (hnd : (scored.map Prod.fst).Nodup) (sec : ℕ → ℚ) (K : ℕ) :
    let items := (mostCommon scored (K * 2)).map
      (fun p : ℕ × S => (p.1, (toLex (p.2, sec p.1) : S ×ₗ ℚ)))
    ((mostCommon items K).map Prod.fst).Nodup ∧
    (mostCommon items K).length = min K scored.length ∧
    (mostCommon items K).Pairwise (fun a b => b.2 ≤ a.2) ∧
    (∀ r ∈ mostCommon items K, ∃ p ∈ scored, r = (p.1, toLex (p.2, sec p.1))) ∧
    ∀ p ∈ scored, p.1 ∉ (mostCommon items K).map Prod.fst →
      ∀ r ∈ mostCommon items K, p.2 ≤ (ofLex r.2).1 := by
  intro items
  have hB : ∀ p ∈ mostCommon items K, ∃ r ∈ mostCommon scored (K * 2),
      p = (r.1, toLex (r.2, sec r.1)) := by
    intro p hp
    obtain ⟨r, hr, he⟩ := List.mem_map.1 (mem_of_mem_take_sortDesc hp : p ∈ items)
    exact ⟨r, hr, he.symm⟩
  have hitemsnd : (items.map Prod.fst).Nodup := by
    simp only [items]
    rw [List.map_map]
    exact nodup_take_sortDesc (f := Prod.fst) _ hnd
  refine ⟨nodup_take_sortDesc (f := Prod.fst) _ hitemsnd, ?_, ?_, ?_, ?_⟩
  · have e1 : (mostCommon items K).length = min K items.length := length_take_sortDesc _ _ _
    have e2 : items.length = min (K * 2) scored.length := by
      simp only [items]
      rw [List.length_map]; exact length_take_sortDesc _ _ _
    rw [e1, e2]
    omega
  · exact (sortDesc_pairwise Prod.snd items).sublist (List.take_sublist _ _)
  · intro r hr
    obtain ⟨p, hp, he⟩ := hB r hr
    exact ⟨p, mem_of_mem_take_sortDesc hp, he⟩
  · intro p hp hn r hr
    by_cases hpm : p ∈ mostCommon scored (K * 2)
    · have hpi : ((p.1, toLex (p.2, sec p.1)) : ℕ × (S ×ₗ ℚ)) ∈ items :=
        List.mem_map.2 ⟨p, hpm, rfl⟩
      have hni : ((p.1, toLex (p.2, sec p.1)) : ℕ × (S ×ₗ ℚ)) ∉ mostCommon items K :=
        fun h' => hn (List.mem_map.2 ⟨_, h', rfl⟩)
      have := top_dominates (key := Prod.snd) hr hpi hni
      simp only at this
      rcases (Prod.Lex.le_iff (x := toLex (p.2, sec p.1)) (y := r.2)).1 this with h' | h'
      · exact le_of_lt h'
      · exact le_of_eq h'.1
    · obtain ⟨r', hr', rfl⟩ := hB r hr
      exact top_dominates (key := Prod.snd) hr' hp hpm

/-- What a successful lookup returns, given the threshold. -/
structure PickedF (R : Rounding) (agg : List ℚ → S) (ns : List ℤ) (normalize : Bool)
    (kept : List (List Char)) (k : ℕ) (q : List Char) (res : List (List Char × (S ×ₗ ℚ))) : Prop where
  nodup : (res.map Prod.fst).Nodup
  scores : ∀ r ∈ res, r.1 ∈ kept ∧ (ofLex r.2).1 = agg (scoreVecF R ns normalize q r.1) ∧
    nmdF R (.str q) (.str r.1) (.int 2) true normalize = .ok (ofLex r.2).2
  length : res.length = min k kept.length
  sorted : res.Pairwise (fun a b => b.2 ≤ a.2)
  best : ∀ w ∈ kept, w ∉ res.map Prod.fst → ∀ r ∈ res,
    agg (scoreVecF R ns normalize q w) ≤ (ofLex r.2).1

omit [LinearOrder S] in
theorem rescoreF_ok (hi : WLInv cf st) (hR : Rounded R st stF) {q : List Char} (hq : Clean q)
    (normalize : Bool) {i : ℕ} {w : List Char} (hw : st.wordList[i]? = some w) (s : S) :
    ∃ x, nmdF R (.str q) (.str w) (.int 2) true normalize = .ok x ∧
      rescoreF R stF q normalize (i, s) = .ok (i, toLex (s, x)) := by
  have hc : Clean w := (hi.words w (List.mem_of_getElem? hw)).1
  have hx : ∃ x, nmdF R (.str q) (.str w) (.int 2) true normalize = .ok x := by
    rw [nmdF_valid hq hc (le_refl 2)]
    have : countInt 2 q + countInt 2 w ≠ 0 := by unfold countInt; omega
    cases normalize
    · exact ⟨_, rfl⟩
    · simp only [if_true, if_neg this]; exact ⟨_, rfl⟩
  obtain ⟨x, hx⟩ := hx
  refine ⟨x, hx, ?_⟩
  have hw' : stF.wordList[i]? = some w := by rw [hR.eqs.2.1]; exact hw
  unfold rescoreF
  simp only [pyGet_ok' hw', bind, Except.bind, hx, pure, Except.pure]

/-- The words that pass the threshold. -/
def keptWords (R : Rounding) (agg : List ℚ → S) (ns : List ℤ) (filterN : ℤ) (normalize : Bool)
    (words : List (List Char)) (q : List Char) (t : S) : List (List Char) :=
  (eligibleWords ns filterN q words).filter (fun w =>
    t ≤ agg ((lowerVecF R ns normalize q w).map (fun x => R.fl (x * 2))))

theorem keptF_map_fst (agg : List ℚ → S) (q : List Char) (normalize : Bool) (t : S) :
    (keptF R agg st q normalize t).map Prod.fst =
      keptWords R agg st.nList st.filterN normalize st.wordList q t := by
  unfold keptF keptWords
  rw [← eligible_map_fst, List.filter_map]
  rfl

theorem lookupF_spec (hi : WLInv cf st) (hR : Rounded R st stF) (agg : List ℚ → S)
    {w q : List Char} {k : ℤ} (hw : w ≠ []) (hk : 0 < k) (hf : stF.fold cf w = q) (hq : Clean q)
    (normalize : Bool) :
    (eligibleWords st.nList st.filterN q st.wordList = [] ∧
      lookupF R agg cf stF (.str w) (.int k) normalize = .ok []) ∨
    ∃ t, (∃ v ∈ eligibleWords st.nList st.filterN q st.wordList,
        t = agg (lowerVecF R st.nList normalize q v)) ∧
      min k.toNat (eligibleWords st.nList st.filterN q st.wordList).length ≤
        ((eligibleWords st.nList st.filterN q st.wordList).filter
          (fun v => t ≤ agg (lowerVecF R st.nList normalize q v))).length ∧
      (RaisesF R agg st.nList st.filterN normalize st.wordList q t →
        lookupF R agg cf stF (.str w) (.int k) normalize = .error .zeroDivisionError) ∧
      (¬ RaisesF R agg st.nList st.filterN normalize st.wordList q t →
        ∃ res, lookupF R agg cf stF (.str w) (.int k) normalize = .ok res ∧
          PickedF R agg st.nList normalize
            (keptWords R agg st.nList st.filterN normalize st.wordList q t) k.toNat q res) := by
  have hk' : 1 ≤ k.toNat := by omega
  have hcheck : stF.checkLookup cf (.str w) (.int k) = .ok (q, k.toNat) := checkLookup_ok hw hk hf hq
  unfold lookupF
  rw [hcheck]
  simp only [bind, Except.bind]
  rcases lookupSimilarityF_spec hi hR agg q hk' normalize with ⟨he, hl⟩ | ⟨t, ht, hmany, hr, hok⟩
  · left
    rw [hl]
    refine ⟨by rw [← eligible_map_fst, he]; rfl, ?_⟩
    simp [mostCommon, sortDesc, pure, Except.pure]
  · right
    refine ⟨t, ?_, ?_, ?_, ?_⟩
    · obtain ⟨⟨v, i⟩, hp, rfl⟩ := ht.2
      refine ⟨v, ?_, rfl⟩
      rw [← eligible_map_fst]; exact List.mem_map_of_mem hp
    · rw [← eligible_map_fst, List.length_map, List.filter_map, List.length_map]
      exact hmany
    · intro h
      rw [hr h]
    · intro h
      obtain ⟨scored, hsc, hperm⟩ := hok h
      rw [hsc]
      simp only
      generalize hK : k.toNat = K at *
      let wordAt : ℕ → List Char := fun i => st.wordList.getD i []
      let sec : ℕ → ℚ := fun i =>
        match nmdF R (.str q) (.str (wordAt i)) (.int 2) true normalize with
        | .ok x => x
        | .error _ => 0
      have hnd : (scored.map Prod.fst).Nodup := by
        rw [(hperm.map Prod.fst).nodup_iff, List.map_map]
        exact nodup_keptF_snd agg q normalize t
      have hmem : ∀ p ∈ scored, (wordAt p.1, p.1) ∈ keptF R agg st q normalize t ∧
          st.wordList[p.1]? = some (wordAt p.1) ∧
          p.2 = agg (scoreVecF R st.nList normalize q (wordAt p.1)) := by
        intro p hp
        obtain ⟨⟨v, i⟩, hp', rfl⟩ := List.mem_map.1 (hperm.mem_iff.1 hp)
        have h3 := (mem_keptF.1 hp').1
        have hwa : wordAt i = v := by
          simp only [wordAt, List.getD_eq_getElem?_getD, h3, Option.getD_some]
        simp only [hwa]
        exact ⟨hp', h3, trivial⟩
      have hsecok : ∀ i v, st.wordList[i]? = some v → ∀ s : S,
          nmdF R (.str q) (.str v) (.int 2) true normalize = .ok (sec i) ∧
          rescoreF R stF q normalize (i, s) = .ok (i, toLex (s, sec i)) := by
        intro i v hv s
        have hwa : wordAt i = v := by
          simp only [wordAt, List.getD_eq_getElem?_getD, hv, Option.getD_some]
        obtain ⟨x, hx, hr⟩ := rescoreF_ok hi hR hq normalize hv s
        have : sec i = x := by simp only [sec, hwa, hx]
        rw [this]; exact ⟨hx, hr⟩
      have hres : (mostCommon scored (K * 2)).mapM (rescoreF R stF q normalize) =
          .ok ((mostCommon scored (K * 2)).map
            (fun p : ℕ × S => (p.1, (toLex (p.2, sec p.1) : S ×ₗ ℚ)))) :=
        mapM_ok _ (fun p hp => (hsecok p.1 _ (hmem p (mem_of_mem_take_sortDesc hp)).2.1 p.2).2)
      rw [hres]
      simp only
      obtain ⟨p1, p2, p3, p4, p5⟩ := pick_spec hnd sec K
      set items := (mostCommon scored (K * 2)).map
        (fun p : ℕ × S => (p.1, (toLex (p.2, sec p.1) : S ×ₗ ℚ))) with hitems
      rw [mapM_ok (g := fun p : ℕ × (S ×ₗ ℚ) => (wordAt p.1, p.2)) _ (by
        intro p hp
        obtain ⟨r, hr, rfl⟩ := p4 p hp
        rw [pyGet_ok' (show stF.wordList[r.1]? = some (wordAt r.1) by
          rw [hR.eqs.2.1]; exact (hmem r hr).2.1)]; rfl)]
      refine ⟨_, rfl, ?_⟩
      have hinj : ∀ p ∈ scored, ∀ p' ∈ scored, wordAt p.1 = wordAt p'.1 → p.1 = p'.1 := by
        intro p hp p' hp' he
        have h3 := (hmem p hp).2.1
        have h4 := (hmem p' hp').2.1
        rw [← he] at h4
        have l3 := (List.getElem?_eq_some_iff.1 h3).1
        exact (List.getElem?_inj l3 hi.nodupW).1 (h3.trans h4.symm)
      refine ⟨?_, ?_, ?_, ?_, ?_⟩
      · rw [List.map_map]
        have : (mostCommon items K).map (Prod.fst ∘ fun p : ℕ × (S ×ₗ ℚ) => (wordAt p.1, p.2)) =
            ((mostCommon items K).map Prod.fst).map wordAt := by
          rw [List.map_map]; rfl
        rw [this]
        apply List.Nodup.map_on _ p1
        intro a ha b hb he
        obtain ⟨p, hp, rfl⟩ := List.mem_map.1 ha
        obtain ⟨p', hp', rfl⟩ := List.mem_map.1 hb
        obtain ⟨r, hr, rfl⟩ := p4 p hp
        obtain ⟨r', hr', rfl⟩ := p4 p' hp'
        exact hinj r hr r' hr' he
      · intro r hr
        obtain ⟨p, hp, rfl⟩ := List.mem_map.1 hr
        obtain ⟨r', hr', rfl⟩ := p4 p hp
        obtain ⟨h4, h5, h6⟩ := hmem r' hr'
        refine ⟨?_, h6, (hsecok _ _ h5 r'.2).1⟩
        rw [← keptF_map_fst]
        exact List.mem_map_of_mem (f := Prod.fst) h4
      · rw [List.length_map, p2, hperm.length_eq, List.length_map, ← keptF_map_fst, List.length_map]
      · rw [List.pairwise_map]
        exact p3
      · intro v hv hn r hr
        obtain ⟨p, hp, rfl⟩ := List.mem_map.1 hr
        rw [← keptF_map_fst] at hv
        obtain ⟨⟨v', i⟩, hvi, rfl⟩ := List.mem_map.1 hv
        have hs : (i, agg (scoreVecF R st.nList normalize q v')) ∈ scored :=
          hperm.mem_iff.2 (List.mem_map.2 ⟨_, hvi, rfl⟩)
        refine p5 _ hs ?_ p hp
        intro h'
        apply hn
        obtain ⟨p', hp', he⟩ := List.mem_map.1 h'
        simp only at he
        rw [List.map_map]
        refine List.mem_map.2 ⟨p', hp', ?_⟩
        have hwa : wordAt i = v' := by
          simp only [wordAt, List.getD_eq_getElem?_getD, (mem_keptF.1 hvi).1, Option.getD_some]
        simp only [Function.comp_def, he, hwa]

/-- If enough candidates reach `t`, everything returned does. -/
theorem PickedF.ge {agg : List ℚ → S} {ns : List ℤ} {normalize : Bool} {kept : List (List Char)}
    {k : ℕ} {q : List Char} {res : List (List Char × (S ×ₗ ℚ))}
    (h : PickedF R agg ns normalize kept k q res) {t : S} {good : List (List Char)}
    (hg : good.Nodup) (hsub : ∀ w ∈ good, w ∈ kept ∧ t ≤ agg (scoreVecF R ns normalize q w))
    (hmany : min k kept.length ≤ good.length) : ∀ r ∈ res, t ≤ (ofLex r.2).1 := by
  intro r hr
  by_contra hlt
  rw [not_le] at hlt
  have hs : ∀ w ∈ r.1 :: good, w ∈ res.map Prod.fst := by
    intro w hw
    rcases List.mem_cons.1 hw with rfl | hw
    · exact List.mem_map_of_mem hr
    · by_contra hn
      obtain ⟨h1, h2⟩ := hsub w hw
      exact absurd (le_trans h2 (h.best w h1 hn r hr)) (not_le.2 hlt)
  have hrn : r.1 ∉ good := by
    intro hin
    have := (hsub _ hin).2
    rw [← (h.scores r hr).2.1] at this
    exact absurd this (not_le.2 hlt)
  have hle := (List.subperm_of_subset (List.nodup_cons.2 ⟨hrn, hg⟩) hs).length_le
  rw [List.length_cons, List.length_map, h.length] at hle
  omega

end Fp
end Verif
