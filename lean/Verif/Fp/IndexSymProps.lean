import Verif.Fp.IndexProps
import Verif.Index.SymProps

/-!
# Property C181 in rounded arithmetic

`R` is any set of (rounded) operations, nothing is assumed about them.
-/

namespace Verif
namespace Fp

open GramSpec IndexSpec

variable {R : FOps} {f : Char → Char} {cf : List Char → List Char}

theorem nmdF_ren (h : CharRen f) (a b : List Char) (k : PyVal) (invert normalize : Bool) :
    nmdF R (.str (a.map f)) (.str (b.map f)) k invert normalize =
      nmdF R (.str a) (.str b) k invert normalize := by
  have bad : ∀ w : List Char, ¬ Clean w → checkWord (.str w) = .error .valueError := by
    intro w hw
    show (if '\x02' ∈ w ∨ '\x03' ∈ w then _ else _) = _
    rw [if_pos]
    by_contra hn
    rw [not_or] at hn
    exact hw hn
  have good : ∀ w : List Char, Clean w → checkWord (.str w) = .ok w := by
    intro w hw
    show (if '\x02' ∈ w ∨ '\x03' ∈ w then _ else _) = _
    rw [if_neg]
    rintro (h | h)
    · exact hw.1 h
    · exact hw.2 h
  by_cases ha : Clean a
  · by_cases hb : Clean b
    · exact C179_float_rename ha hb (fun c _ d _ e => h.inj e) ((h.clean a).2 ha) ((h.clean b).2 hb)
        k invert normalize
    · unfold nmdF
      rw [good a ha, bad b hb, good _ ((h.clean a).2 ha), bad _ (fun e => hb ((h.clean b).1 e))]
      rfl
  · unfold nmdF
    rw [bad a ha, bad _ (fun e => ha ((h.clean a).1 e))]
    rfl

theorem addLocationsF_ren (h : CharRen f) (gs : List (List Char)) :
    addLocationsF R (gs.map (List.map f)) = dmap (List.map f) (addLocationsF R gs) := by
  unfold addLocationsF
  rw [List.length_map]
  split
  · rw [zipIdx_map']
    exact foldl_ren (ρ := dmap (List.map f)) (ψ := fun p : List Char × ℕ => (p.1.map f, p.2))
      (s := ([] : Dict (List Char) (List ℚ)))
      (fun d p => appendTo_dmap h.map_inj d p.1 _) gs.zipIdx
  · cases gs with
    | nil => rfl
    | cons g gs => rfl

theorem addGramsF_ren (h : CharRen f) (st : WL) (w : List Char) (idx : ℕ) :
    addGramsF R (renWL (List.map f) st) (w.map f) idx =
      renWL (List.map f) (addGramsF R st w idx) := by
  unfold addGramsF
  have := foldl_ren (ρ := renWL (List.map f)) (ψ := id)
    (f := fun st n => (addLocationsF R (getNGrams (w.map f) n)).foldl (WL.addItem idx) st)
    (g := fun st n => (addLocationsF R (getNGrams w n)).foldl (WL.addItem idx) st)
    (fun s n => by
      rw [id, h.getNGrams, addLocationsF_ren h]
      exact foldl_ren (fun s i => addItem_ren h idx s i) _ s) st.nList st
  rwa [List.map_id] at this

theorem addWordF_ren (h : CharRen f) {st : WL}
    (hcf : st.caseInsensitive = true → ∀ w, cf (w.map f) = (cf w).map f) (v : PyVal) :
    addWordF R cf (renWL (List.map f) st) (renVal (List.map f) v) =
      (renWL (List.map f) (addWordF R cf st v).1, (addWordF R cf st v).2) := by
  cases v with
  | int i => rfl
  | other => rfl
  | str w =>
    unfold addWordF renVal
    simp only
    rw [List.length_map, fold_ren hcf]
    split
    · rfl
    · generalize st.fold cf w = v
      have e : Dict.has (renWL (List.map f) st).wordIndices (v.map f) =
          Dict.has st.wordIndices v := by
        exact congrArg Option.isSome (get?_dmap_inj h.map_inj _ _)
      rw [e]
      simp only [h.mem_stx, h.mem_etx]
      split
      · rfl
      · split
        · rfl
        · rw [resolve_ren h hcf]
          rcases st.resolve cf v with ⟨st', r⟩
          cases r with
          | error e => rfl
          | ok idx =>
            simp only
            rw [addFilter_ren h, addGramsF_ren h]

theorem minScoresF_ren (h : CharRen f) (st : WL) (q : List Char) (normalize : Bool) :
    minScoresF R (renWL (List.map f) st) (q.map f) normalize = minScoresF R st q normalize := by
  unfold minScoresF
  apply foldlM_congr_mem (l := st.nList.zipIdx)
  intro nk _ ms
  rw [h.getNGrams, counter_dmap h.map_inj, filterCandidates_ren h]
  unfold dmap
  rw [List.foldlM_map]
  apply foldlM_congr_mem
  intro gc _ ms
  have : Dict.get? (renWL (List.map f) st).ngramCounts (gc.1.map f) =
      Dict.get? st.ngramCounts gc.1 := get?_dmap_inj h.map_inj _ _
  simp only [this]
  apply foldlM_congr_mem
  intro e _ ms
  unfold minStepF
  rw [List.length_map]
  rfl

theorem queryLocationsF_ren (h : CharRen f) (gs : List (List Char)) :
    queryLocationsF R (gs.map (List.map f)) = (queryLocationsF R gs).map (dmap (List.map f)) := by
  unfold queryLocationsF
  rw [List.length_map, zipIdx_map']
  have key : ∀ (l : List (List Char × ℕ)) (d : Dict (List Char) (List ℚ)),
      (l.map fun p => (p.1.map f, p.2)).foldlM (fun d p =>
        if (gs.length : ℤ) - 1 = 0 then Except.error PyErr.zeroDivisionError
        else .ok (Dict.appendTo d p.1 (R.fl ((p.2 : ℚ) / ((gs.length : ℚ) - 1)))))
        (dmap (List.map f) d) =
      (l.foldlM (fun d p =>
        if (gs.length : ℤ) - 1 = 0 then Except.error PyErr.zeroDivisionError
        else .ok (Dict.appendTo d p.1 (R.fl ((p.2 : ℚ) / ((gs.length : ℚ) - 1))))) d).map
        (dmap (List.map f)) := by
    intro l
    induction l with
    | nil => intro d; rfl
    | cons p l ih =>
      intro d
      rw [List.map_cons, List.foldlM_cons, List.foldlM_cons]
      simp only
      split
      · rfl
      · rename_i hd
        rw [appendTo_dmap h.map_inj]
        have := ih (Dict.appendTo d p.1 (R.fl ((p.2 : ℚ) / ((gs.length : ℚ) - 1))))
        simp only [if_neg hd] at this
        exact this
  exact key gs.zipIdx []

theorem matchScoresF_ren (h : CharRen f) (st : WL) (q : List Char) (possible : List ℕ) :
    matchScoresF R (renWL (List.map f) st) (q.map f) possible = matchScoresF R st q possible := by
  unfold matchScoresF
  apply foldlM_congr_mem (l := st.nList.zipIdx)
  intro nk _ ms
  rw [h.getNGrams, queryLocationsF_ren h]
  cases queryLocationsF R (getNGrams q nk.1) with
  | error e => rfl
  | ok d =>
    show Except.ok _ = Except.ok _
    congr 1
    unfold dmap
    rw [List.foldl_map]
    congr 1
    funext ms gl
    have : Dict.get? (renWL (List.map f) st).ngramPositions (gl.1.map f) =
      Dict.get? st.ngramPositions gl.1 := get?_dmap_inj h.map_inj _ _
    rw [this]
    rfl

theorem normalizeRowF_ren (st : WL) (q : List Char) (normalize : Bool) (p : ℕ × List ℚ) :
    normalizeRowF R (renWL (List.map f) st) (q.map f) normalize p =
      normalizeRowF R st q normalize p := by
  unfold normalizeRowF normCellF
  rw [List.length_map]
  rfl

theorem rescoreF_ren {S : Type} (h : CharRen f) (st : WL) (q : List Char) (normalize : Bool)
    (p : ℕ × S) :
    rescoreF R (renWL (List.map f) st) (q.map f) normalize p = rescoreF R st q normalize p := by
  unfold rescoreF
  have : pyGet (renWL (List.map f) st).wordList p.1 = (pyGet st.wordList p.1).map (List.map f) :=
    pyGet_map _ _ _
  rw [this]
  cases pyGet st.wordList p.1 with
  | error e => rfl
  | ok w =>
    simp only [Except.map, bind, Except.bind]
    rw [nmdF_ren h]

theorem lookupF_ren {S : Type} [LinearOrder S] (agg : List ℚ → S) (h : CharRen f) {st : WL}
    (hcf : st.caseInsensitive = true → ∀ w, cf (w.map f) = (cf w).map f) (v k : PyVal)
    (normalize : Bool) :
    lookupF R agg cf (renWL (List.map f) st) (renVal (List.map f) v) k normalize =
      (lookupF R agg cf st v k normalize).map (List.map fun r => (r.1.map f, r.2)) := by
  unfold lookupF
  rw [checkLookup_ren h hcf]
  cases st.checkLookup cf v k with
  | error e => rfl
  | ok p =>
    obtain ⟨q, k⟩ := p
    simp only [Except.map, bind, Except.bind]
    have e0 : lookupSimilarityF R agg (renWL (List.map f) st) (q.map f) k normalize =
        lookupSimilarityF R agg st q k normalize := by
      unfold lookupSimilarityF
      have e : normalizeRowF R (renWL (List.map f) st) (q.map f) normalize =
        normalizeRowF R st q normalize := funext fun p => normalizeRowF_ren st q normalize p
      simp only [minScoresF_ren h, matchScoresF_ren h, e]
    rw [e0]
    cases lookupSimilarityF R agg st q k normalize with
    | error e => rfl
    | ok scored =>
      simp only
      have e : rescoreF R (S := S) (renWL (List.map f) st) (q.map f) normalize =
        rescoreF R st q normalize := funext fun p => rescoreF_ren h st q normalize p
      rw [e]
      cases (mostCommon scored (k * 2)).mapM (rescoreF R st q normalize) with
      | error e => rfl
      | ok items =>
        exact mapM_words st f (fun p => p.2) _

theorem ci_addWordF (st : WL) (v : PyVal) :
    (addWordF R cf st v).1.caseInsensitive = st.caseInsensitive := by
  cases v with
  | int i => rfl
  | other => rfl
  | str w =>
    unfold addWordF
    simp only
    split
    · rfl
    · split
      · rfl
      · split
        · rfl
        · have := ci_resolve (cf := cf) st (st.fold cf w)
          generalize st.resolve cf (st.fold cf w) = p at this ⊢
          obtain ⟨st', r⟩ := p
          cases r with
          | error e => exact this
          | ok idx => exact (ci_foldl_grams _ idx _ _).trans ((ci_addFilter _ _ _).trans this)

theorem runF_ren (h : CharRen f) : ∀ (ops : List WLOp) {st : WL},
    (st.caseInsensitive = true → ∀ w, cf (w.map f) = (cf w).map f) →
    runF R cf (renWL (List.map f) st) (ops.map (renWLOp (List.map f))) =
      renWL (List.map f) (runF R cf st ops) ∧
    (runF R cf st ops).caseInsensitive = st.caseInsensitive
  | [], _, _ => ⟨rfl, rfl⟩
  | .add v :: ops, st, hcf => by
    have e : runF R cf (renWL (List.map f) st) ((WLOp.add v :: ops).map (renWLOp (List.map f))) =
        runF R cf (addWordF R cf (renWL (List.map f) st) (renVal (List.map f) v)).1
          (ops.map (renWLOp (List.map f))) := rfl
    rw [e, addWordF_ren h hcf]
    obtain ⟨h1, h2⟩ := runF_ren h ops (st := (addWordF R cf st v).1) (by rwa [ci_addWordF])
    exact ⟨h1, h2.trans (ci_addWordF st v)⟩
  | .lookup _ _ _ :: ops, st, hcf => runF_ren h ops hcf

/-- **C181.** With rounded arithmetic of any kind: after the same calls with renamed words, looking up
a renamed word gives the renamed words in the same order, and the scores are the same floats. -/
theorem C181_float_rename {S : Type} [LinearOrder S] (agg : List ℚ → S) {n : NArg} {cs : Bool}
    {fn : ℤ} {st₀ : WL} (h0 : WL.new n cs fn = .ok st₀)
    (hf : Function.Injective f) (hs : f stx = stx) (he : f etx = etx)
    (hcf : st₀.caseInsensitive = true → ∀ w, cf (w.map f) = (cf w).map f) (ops : List WLOp)
    (v k : PyVal) (normalize : Bool) :
    (lookupF R agg cf (runF R cf st₀ (ops.map (renWLOp (List.map f)))) (renVal (List.map f) v) k
        normalize =
      (lookupF R agg cf (runF R cf st₀ ops) v k normalize).map
        (List.map fun r => (r.1.map f, r.2))) ∧
    (addWordF R cf (runF R cf st₀ (ops.map (renWLOp (List.map f)))) (renVal (List.map f) v)).2 =
      (addWordF R cf (runF R cf st₀ ops) v).2 := by
  have h : CharRen f := ⟨hf, hs, he⟩
  obtain ⟨h1, h2⟩ := runF_ren (R := R) h ops (st := st₀) hcf
  rw [renWL_new h0] at h1
  have hcf' : (runF R cf st₀ ops).caseInsensitive = true → ∀ w, cf (w.map f) = (cf w).map f := by
    rwa [h2]
  rw [h1]
  exact ⟨lookupF_ren agg h hcf' v k normalize, by rw [addWordF_ren h hcf']⟩

example : lookupF binary64 (mean1F binary64) id
      (runF binary64 id symList (symWords.map (renWLOp (List.map (Equiv.swap 'a' 'b')))))
      (.str "abnanb".toList) (.int 2) true =
    (lookupF binary64 (mean1F binary64) id (runF binary64 id symList symWords)
      (.str "banbna".toList) (.int 2) true).map
      (List.map fun r => (r.1.map (Equiv.swap 'a' 'b'), r.2)) := by
  decide +kernel

end Fp
end Verif
