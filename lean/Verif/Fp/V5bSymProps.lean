import Verif.Fp.IndexSymProps
import Verif.Fp.V5bErrorProps
import Verif.Fp.V3Props

/-!
# Property C249: `ApproxWordListV5b` and `ApproxWordListV3` with floats and renamed characters

`R` is any set of (rounded) operations, nothing is assumed about them.
-/

namespace Verif
namespace Fp

open GramSpec IndexSpec

variable {R : FOps} {f : Char → Char} {cf : List Char → List Char}

/-! ### `ApproxWordListV5b` -/

theorem v5bLocationsF_ren (h : CharRen f) (gs : List (List Char)) :
    v5bLocationsF R (gs.map (List.map f)) = dmap (List.map f) (v5bLocationsF R gs) := by
  unfold v5bLocationsF
  rw [List.length_map, zipIdx_map']
  exact foldl_ren (ρ := dmap (List.map f)) (ψ := fun p : List Char × ℕ => (p.1.map f, p.2))
    (s := ([] : Dict (List Char) (List ℚ)))
    (fun d p => appendTo_dmap h.map_inj d p.1 _) gs.zipIdx

theorem v5bAddGramsF_ren (h : CharRen f) (st : WL) (w : List Char) (idx : ℕ) :
    v5bAddGramsF R (renWL (List.map f) st) (w.map f) idx =
      renWL (List.map f) (v5bAddGramsF R st w idx) := by
  unfold v5bAddGramsF
  have := foldl_ren (ρ := renWL (List.map f)) (ψ := id)
    (f := fun st n => if (getNGrams (w.map f) n).length = 0 then st
      else (v5bLocationsF R (getNGrams (w.map f) n)).foldl (WL.addItem idx) st)
    (g := fun st n => if (getNGrams w n).length = 0 then st
      else (v5bLocationsF R (getNGrams w n)).foldl (WL.addItem idx) st)
    (fun s n => by
      rw [id, h.getNGrams, v5bLocationsF_ren h, List.length_map]
      split
      · rfl
      · exact foldl_ren (fun s i => addItem_ren h idx s i) _ s) st.nList st
  rwa [List.map_id] at this

theorem v5bResolve_ren (h : CharRen f) (st : WL) (w : List Char) :
    (renWL (List.map f) st).v5bResolve (w.map f) =
      (renWL (List.map f) (st.v5bResolve w).1, (st.v5bResolve w).2) := by
  unfold WL.v5bResolve
  rw [List.length_map]
  split
  · rfl
  · have e : Dict.get? (renWL (List.map f) st).wordIndices (w.map f) =
        Dict.get? st.wordIndices w := get?_dmap_inj h.map_inj _ _
    rw [e]
    cases Dict.get? st.wordIndices w with
    | some i => rfl
    | none =>
      have e1 : Dict.set (dmap (List.map f) st.wordIndices) (w.map f) st.wordList.length =
        dmap (List.map f) (Dict.set st.wordIndices w st.wordList.length) := set_dmap_inj h.map_inj _ _ _
      simp only [renWL, List.length_map, e1, List.map_append, List.map_cons, List.map_nil]

theorem v5bAddWordF_ren (h : CharRen f) {st : WL}
    (hcf : st.caseInsensitive = true → ∀ w, cf (w.map f) = (cf w).map f) (v : PyVal) :
    v5bAddWordF R cf (renWL (List.map f) st) (renVal (List.map f) v) =
      (renWL (List.map f) (v5bAddWordF R cf st v).1, (v5bAddWordF R cf st v).2) := by
  cases v with
  | int i => rfl
  | other => rfl
  | str w =>
    unfold v5bAddWordF renVal
    simp only
    rw [List.length_map, fold_ren hcf]
    split
    · rfl
    · generalize st.fold cf w = v
      have e : Dict.has (renWL (List.map f) st).wordIndices (v.map f) =
          Dict.has st.wordIndices v := congrArg Option.isSome (get?_dmap_inj h.map_inj _ _)
      rw [e]
      simp only [h.mem_stx, h.mem_etx, List.length_map]
      split
      · rfl
      · split
        · rfl
        · split
          · rfl
          · rw [v5bResolve_ren h]
            rcases st.v5bResolve v with ⟨st', r⟩
            cases r with
            | none => rfl
            | some idx =>
              simp only
              rw [addFilter_ren h, v5bAddGramsF_ren h]

theorem v5bCandidates_ren (h : CharRen f) (st : WL) (q : List Char) :
    (renWL (List.map f) st).v5bCandidates (q.map f) = st.v5bCandidates q := by
  unfold WL.v5bCandidates
  have e : (renWL (List.map f) st).filterN = st.filterN := rfl
  have e1 : ((getNGrams (q.map f) st.filterN).dedup).flatMap
      (fun g => (Dict.get? (renWL (List.map f) st).ngramFilter g).getD []) =
      ((getNGrams q st.filterN).dedup).flatMap
        (fun g => (Dict.get? st.ngramFilter g).getD []) := by
    rw [h.getNGrams, List.dedup_map_of_injective h.map_inj, List.flatMap_map]
    apply List.flatMap_congr
    intro g _
    have : Dict.get? (renWL (List.map f) st).ngramFilter (g.map f) = Dict.get? st.ngramFilter g :=
      get?_dmap_inj h.map_inj _ _
    rw [this]
  have e2 : (getNGrams (q.map f) st.filterN).dedup.isEmpty = (getNGrams q st.filterN).dedup.isEmpty := by
    rw [h.getNGrams, List.dedup_map_of_injective h.map_inj, List.isEmpty_map]
  have e3 : (renWL (List.map f) st).wordList = st.wordList.map (List.map f) := rfl
  simp only [e, e1, e2, e3, List.isEmpty_map, List.length_map]

theorem v5bMinScoresF_ren (h : CharRen f) (st : WL) (q : List Char) (normalize : Bool)
    (cand : List ℕ) :
    v5bMinScoresF R (renWL (List.map f) st) (q.map f) normalize cand =
      v5bMinScoresF R st q normalize cand := by
  unfold v5bMinScoresF
  apply foldlM_congr_mem (l := st.nList.zipIdx)
  intro nk _ ms
  rw [h.getNGrams, counter_dmap h.map_inj, List.length_map]
  split
  · rfl
  · unfold dmap
    rw [List.foldlM_map]
    apply foldlM_congr_mem
    intro gc _ ms
    have : Dict.get? (renWL (List.map f) st).ngramCounts (gc.1.map f) =
        Dict.get? st.ngramCounts gc.1 := get?_dmap_inj h.map_inj _ _
    simp only [this]
    apply foldlM_congr_mem
    intro e _ ms
    unfold v5bMinStepF
    rw [List.length_map]
    rfl

theorem v5bMatchScoresF_ren (h : CharRen f) (st : WL) (q : List Char) (normalize : Bool)
    (fin : List ℕ) :
    v5bMatchScoresF R (renWL (List.map f) st) (q.map f) normalize fin =
      v5bMatchScoresF R st q normalize fin := by
  unfold v5bMatchScoresF
  apply foldlM_congr_mem (l := st.nList.zipIdx)
  intro nk _ ms
  rw [h.getNGrams, v5bLocationsF_ren h, List.length_map]
  split
  · rfl
  · unfold dmap
    rw [List.foldlM_map]
    apply foldlM_congr_mem
    intro gl _ ms
    have : Dict.get? (renWL (List.map f) st).ngramPositions (gl.1.map f) =
        Dict.get? st.ngramPositions gl.1 := get?_dmap_inj h.map_inj _ _
    simp only [this]
    apply foldlM_congr_mem
    intro e _ ms
    unfold v5bMatchStepF
    rw [List.length_map]
    rfl

theorem v5bLookupF_ren {S : Type} [LinearOrder S] (agg : List ℚ → S) (h : CharRen f) {st : WL}
    (hcf : st.caseInsensitive = true → ∀ w, cf (w.map f) = (cf w).map f) (v k : PyVal)
    (normalize : Bool) :
    v5bLookupF R agg cf (renWL (List.map f) st) (renVal (List.map f) v) k normalize =
      (v5bLookupF R agg cf st v k normalize).map (List.map fun r => (r.1.map f, r.2)) := by
  cases v with
  | int i => rfl
  | other => rfl
  | str w =>
    unfold v5bLookupF renVal
    simp only
    rw [List.length_map, fold_ren hcf]
    split
    · rfl
    · cases k with
      | str s => rfl
      | other => rfl
      | int k =>
        simp only
        split
        · rfl
        · generalize st.fold cf w = q
          simp only [h.mem_stx, h.mem_etx, List.length_map]
          split
          · rfl
          · split
            · rfl
            · have e0 : v5bLookupSimilarityF R agg (renWL (List.map f) st) (q.map f) k.toNat normalize =
                  v5bLookupSimilarityF R agg st q k.toNat normalize := by
                unfold v5bLookupSimilarityF
                simp only [v5bCandidates_ren h, v5bMinScoresF_ren h, v5bMatchScoresF_ren h,
                  List.length_map]
              rw [e0]
              cases v5bLookupSimilarityF R agg st q k.toNat normalize with
              | error e => rfl
              | ok scored => exact mapM_words st f (fun p => p.2) _

theorem ci_v5bAddWordF (st : WL) (v : PyVal) :
    (v5bAddWordF R cf st v).1.caseInsensitive = st.caseInsensitive := by
  have hg : ∀ (w : List Char) (idx : ℕ) (ns : List ℤ) (st : WL),
      (ns.foldl (fun st n => if (getNGrams w n).length = 0 then st
        else (v5bLocationsF R (getNGrams w n)).foldl (WL.addItem idx) st) st).caseInsensitive =
      st.caseInsensitive := by
    intro w idx ns
    induction ns with
    | nil => intro st; rfl
    | cons n ns ih =>
      intro st
      rw [List.foldl_cons, ih]
      split
      · rfl
      · exact ci_foldl_addItem idx _ _
  cases v with
  | int i => rfl
  | other => rfl
  | str w =>
    unfold v5bAddWordF
    simp only
    split
    · rfl
    · split
      · rfl
      · split
        · rfl
        · split
          · rfl
          · have hr : (st.v5bResolve (st.fold cf w)).1.caseInsensitive = st.caseInsensitive := by
              unfold WL.v5bResolve
              split
              · rfl
              · split <;> rfl
            generalize st.v5bResolve (st.fold cf w) = p at hr ⊢
            obtain ⟨st', r⟩ := p
            cases r with
            | none => exact hr
            | some idx => exact (hg _ idx _ _).trans ((ci_addFilter _ _ _).trans hr)

theorem v5bRunF_ren (h : CharRen f) (vs : List PyVal) : ∀ {st : WL},
    (st.caseInsensitive = true → ∀ w, cf (w.map f) = (cf w).map f) →
    v5bRunF R cf (renWL (List.map f) st) (vs.map (renVal (List.map f))) =
      renWL (List.map f) (v5bRunF R cf st vs) ∧
    (v5bRunF R cf st vs).caseInsensitive = st.caseInsensitive := by
  induction vs with
  | nil => intro st _; exact ⟨rfl, rfl⟩
  | cons v vs ih =>
    intro st hcf
    have e : v5bRunF R cf (renWL (List.map f) st) ((v :: vs).map (renVal (List.map f))) =
        v5bRunF R cf (v5bAddWordF R cf (renWL (List.map f) st) (renVal (List.map f) v)).1
          (vs.map (renVal (List.map f))) := rfl
    rw [e, v5bAddWordF_ren h hcf]
    obtain ⟨h1, h2⟩ := ih (st := (v5bAddWordF R cf st v).1) (by rwa [ci_v5bAddWordF])
    exact ⟨h1, h2.trans (ci_v5bAddWordF st v)⟩

theorem renWL_v5bNew {n : NArg} {cs : Option Bool} {fn : Option PyVal} {st₀ : WL}
    (h0 : WL.v5bNew n cs fn = .ok st₀) (φ : List Char → List Char) : renWL φ st₀ = st₀ := by
  unfold WL.v5bNew at h0
  cases hm : v5bNList n with
  | error e => rw [hm] at h0; cases h0
  | ok l =>
    rw [hm] at h0
    cases cs with
    | none => cases h0
    | some cs =>
      cases hf : v5bFilterN fn with
      | error e => simp [hf, bind, Except.bind] at h0
      | ok k =>
        simp only [hf, bind, Except.bind] at h0
        injection h0 with h0
        rw [← h0]
        rfl

/-- **C249.** With rounded arithmetic of any kind: after the same words, renamed, have been added to an
`ApproxWordListV5b`, looking up a renamed word gives the renamed words in the same order, and the scores are
the same floats; adding a renamed word raises if and only if adding the word does. -/
theorem C249_float_v5b_rename {S : Type} [LinearOrder S] (agg : List ℚ → S) {n : NArg}
    {cs : Option Bool} {fn : Option PyVal} {st₀ : WL} (h0 : WL.v5bNew n cs fn = .ok st₀)
    (hf : Function.Injective f) (hs : f stx = stx) (he : f etx = etx)
    (hcf : st₀.caseInsensitive = true → ∀ w, cf (w.map f) = (cf w).map f) (vs : List PyVal)
    (v k : PyVal) (normalize : Bool) :
    (v5bLookupF R agg cf (v5bRunF R cf st₀ (vs.map (renVal (List.map f)))) (renVal (List.map f) v) k
        normalize =
      (v5bLookupF R agg cf (v5bRunF R cf st₀ vs) v k normalize).map
        (List.map fun r => (r.1.map f, r.2))) ∧
    (v5bAddWordF R cf (v5bRunF R cf st₀ (vs.map (renVal (List.map f)))) (renVal (List.map f) v)).2 =
      (v5bAddWordF R cf (v5bRunF R cf st₀ vs) v).2 := by
  have h : CharRen f := ⟨hf, hs, he⟩
  obtain ⟨h1, h2⟩ := v5bRunF_ren (R := R) h vs (st := st₀) hcf
  rw [renWL_v5bNew h0] at h1
  have hcf' : (v5bRunF R cf st₀ vs).caseInsensitive = true →
      ∀ w, cf (w.map f) = (cf w).map f := by rwa [h2]
  rw [h1]
  exact ⟨v5bLookupF_ren agg h hcf' v k normalize, by rw [v5bAddWordF_ren h hcf']⟩

/-- Binary64, "banana" with the letters a and b exchanged. -/
example : v5bLookupF binary64 (mean1F binary64) id (listBF ["abnbnb", "abndbnb", "baab"])
      (.str "abnanb".toList) (.int 2) true =
    (v5bLookupF binary64 (mean1F binary64) id (listBF ["banana", "bandana", "abba"])
      (.str "banbna".toList) (.int 2) true).map
      (List.map fun r => (r.1.map (Equiv.swap 'a' 'b'), r.2)) ∧
    (v5bLookupF binary64 (mean1F binary64) id (listBF ["banana", "bandana", "abba"])
      (.str "banbna".toList) (.int 2) true).map (List.map Prod.fst) =
      .ok ["banana".toList, "bandana".toList] := by
  decide +kernel

/-! ### `ApproxWordListV3` -/

/-- An `ApproxWordListV3` with renamed words. -/
def renV3 (φ : List Char → List Char) (st : V3) : V3 :=
  { st with
    vocabulary := st.vocabulary.map φ
    vocabIndices := dmap φ st.vocabIndices
    ngramIndices := dmap φ st.ngramIndices }

theorem pySliceZ_map {α β : Type} (g : α → β) (w : List α) (a : ℕ) (b : ℤ) :
    pySliceZ (w.map g) a b = (pySliceZ w a b).map g := by
  unfold pySliceZ
  rw [List.length_map]
  exact pySlice_map g _ _ _

theorem v3QueryGrams_ren (h : CharRen f) (w : List Char) (n : ℤ) :
    v3QueryGrams (w.map f) n = (v3QueryGrams w n).map (List.map f) := by
  unfold v3QueryGrams
  rw [h.pad, List.length_map, List.map_map]
  apply List.map_congr_left
  intro i _
  exact pySliceZ_map f _ _ _

theorem v3AddGrams_ren (h : CharRen f) (w : List Char) (n : ℤ) :
    v3AddGrams (w.map f) n = (v3AddGrams w n).map (List.map f) := by
  unfold v3AddGrams
  rw [h.pad, List.length_map]
  split
  · rw [List.map_map]
    apply List.map_congr_left
    intro i _
    exact pySliceZ_map f _ _ _
  · simp [List.map_map, Function.comp_def]

theorem fold3_ren {st : V3} (hcf : st.caseInsensitive = true → ∀ w, cf (w.map f) = (cf w).map f)
    (w : List Char) : (renV3 (List.map f) st).fold cf (w.map f) = (st.fold cf w).map f := by
  unfold V3.fold
  have e : (renV3 (List.map f) st).caseInsensitive = st.caseInsensitive := rfl
  rw [e]
  split
  · exact hcf (by assumption) w
  · rfl

theorem v3AddF_ren (h : CharRen f) (st : V3) (w : List Char) (idx : ℕ) :
    v3AddF R (renV3 (List.map f) st) (w.map f) idx = renV3 (List.map f) (v3AddF R st w idx) := by
  unfold v3AddF renV3
  simp only [V3.mk.injEq, true_and]
  have := foldl_ren (ρ := dmap (List.map f)) (ψ := id)
    (f := fun (d : Dict (List Char) (List (ℕ × List ℚ))) n =>
      (addLocationsF R (v3AddGrams (w.map f) n)).foldl
        (fun d it => Dict.appendTo d it.1 (idx, it.2)) d)
    (g := fun d n => (addLocationsF R (v3AddGrams w n)).foldl
        (fun d it => Dict.appendTo d it.1 (idx, it.2)) d)
    (fun s n => by
      rw [id, v3AddGrams_ren h, addLocationsF_ren h]
      exact foldl_ren (ρ := dmap (List.map f))
        (ψ := fun it : List Char × List ℚ => (it.1.map f, it.2))
        (fun s i => appendTo_dmap h.map_inj s i.1 _) _ s) st.nList.dedup st.ngramIndices
  rwa [List.map_id] at this

theorem resolve3_ren (h : CharRen f) {st : V3}
    (hcf : st.caseInsensitive = true → ∀ w, cf (w.map f) = (cf w).map f) (w : List Char) (a : Bool) :
    (renV3 (List.map f) st).resolve cf (w.map f) a =
      (renV3 (List.map f) (st.resolve cf w a).1, (st.resolve cf w a).2) := by
  unfold V3.resolve
  rw [List.length_map, fold3_ren hcf]
  split
  · rfl
  · generalize st.fold cf w = v
    have e : Dict.get? (renV3 (List.map f) st).vocabIndices (v.map f) =
        Dict.get? st.vocabIndices v := get?_dmap_inj h.map_inj _ _
    simp only
    rw [e]
    cases Dict.get? st.vocabIndices v with
    | some i => rfl
    | none =>
      cases a with
      | false => rfl
      | true =>
        have e1 : Dict.set (dmap (List.map f) st.vocabIndices) (v.map f) st.vocabulary.length =
          dmap (List.map f) (Dict.set st.vocabIndices v st.vocabulary.length) :=
            set_dmap_inj h.map_inj _ _ _
        have e2 : st.vocabulary.map (List.map f) ++ [v.map f] =
            (st.vocabulary ++ [v]).map (List.map f) := by
          rw [List.map_append]; rfl
        have e3 : (some (v.map f) : Option (List Char)) = (some v).map (List.map f) := rfl
        simp only [renV3, List.length_map, e1, e2, List.getElem?_map]
        rw [e3]
        simp only [(Option.map_injective h.map_inj).eq_iff, dmap, List.length_map]
        simp only [Bool.not_true, Bool.false_eq_true, if_false]
        split <;> rfl

theorem v3AddWordF_ren (h : CharRen f) {st : V3}
    (hcf : st.caseInsensitive = true → ∀ w, cf (w.map f) = (cf w).map f) (v : PyVal) :
    v3AddWordF R cf (renV3 (List.map f) st) (renVal (List.map f) v) =
      (renV3 (List.map f) (v3AddWordF R cf st v).1, (v3AddWordF R cf st v).2) := by
  cases v with
  | int i => rfl
  | other => rfl
  | str w =>
    unfold v3AddWordF renVal
    simp only
    rw [List.length_map, fold3_ren hcf]
    split
    · rfl
    · generalize st.fold cf w = v
      have e : Dict.has (renV3 (List.map f) st).vocabIndices (v.map f) =
          Dict.has st.vocabIndices v := congrArg Option.isSome (get?_dmap_inj h.map_inj _ _)
      rw [e]
      simp only [h.mem_stx, h.mem_etx]
      split
      · rfl
      · split
        · rfl
        · rw [resolve3_ren h hcf]
          rcases st.resolve cf v true with ⟨st', r⟩
          cases r with
          | error e => rfl
          | ok idx =>
            simp only
            rw [v3AddF_ren h]

theorem v3MatchesF_ren (h : CharRen f) (st : V3) (q : List Char) :
    v3MatchesF R (renV3 (List.map f) st) (q.map f) = v3MatchesF R st q := by
  unfold v3MatchesF
  apply foldlM_congr_mem (l := st.nList.zipIdx)
  intro nk _ ms
  rw [v3QueryGrams_ren h, queryLocationsF_ren h]
  cases queryLocationsF R (v3QueryGrams q nk.1) with
  | error e => rfl
  | ok d =>
    show Except.ok _ = Except.ok _
    congr 1
    unfold dmap
    rw [List.foldl_map]
    congr 1
    funext ms gl
    have : Dict.get? (renV3 (List.map f) st).ngramIndices (gl.1.map f) =
      Dict.get? st.ngramIndices gl.1 := get?_dmap_inj h.map_inj _ _
    rw [this]
    rfl

theorem v3LookupF_ren {S : Type} [LinearOrder S] (agg : List ℚ → S) (h : CharRen f) {st : V3}
    (hcf : st.caseInsensitive = true → ∀ w, cf (w.map f) = (cf w).map f) (v : PyVal)
    (topK : Option ℤ) :
    v3LookupF R agg cf (renV3 (List.map f) st) (renVal (List.map f) v) topK =
      (v3LookupF R agg cf st v topK).map (List.map fun r => (r.1.map f, r.2)) := by
  cases v with
  | int i => rfl
  | other => rfl
  | str w =>
    unfold v3LookupF renVal
    simp only
    rw [List.length_map, fold3_ren hcf]
    split
    · rfl
    · generalize st.fold cf w = q
      simp only [h.mem_stx, h.mem_etx]
      split
      · rfl
      · have e0 : v3LookupScoresF R agg (renV3 (List.map f) st) (q.map f) =
            v3LookupScoresF R agg st q := by
          have e : v3NormalizeRowF R (renV3 (List.map f) st) (q.map f) = v3NormalizeRowF R st q := by
            funext p
            unfold v3NormalizeRowF
            rw [List.length_map]
            rfl
          unfold v3LookupScoresF
          rw [v3MatchesF_ren h, e]
        rw [e0]
        cases v3LookupScoresF R agg st q with
        | error e => rfl
        | ok counter =>
          simp only [bind, Except.bind]
          cases pyGet (mostCommon counter 1) 0 with
          | error e => rfl
          | ok _ =>
            simp only
            have e1 : (fun p : ℕ × S => (do
                let v ← pyGet (renV3 (List.map f) st).vocabulary p.1
                let s ← nmdF R (.str (q.map f)) (.str v) (.int 2) true true
                return (v, p.2, s) : Except PyErr (List Char × S × ℚ))) =
                fun p => ((do
                let v ← pyGet st.vocabulary p.1
                let s ← nmdF R (.str q) (.str v) (.int 2) true true
                return (v, p.2, s) : Except PyErr (List Char × S × ℚ))).map
                  (fun r => (r.1.map f, r.2)) := by
              funext p
              have : pyGet (renV3 (List.map f) st).vocabulary p.1 =
                (pyGet st.vocabulary p.1).map (List.map f) := pyGet_map _ _ _
              rw [this]
              cases pyGet st.vocabulary p.1 with
              | error e => rfl
              | ok v =>
                simp only [Except.map, bind, Except.bind]
                rw [nmdF_ren h]
                cases nmdF R (.str q) (.str v) (.int 2) true true <;> rfl
            have e2 := mapM_map_out (fun r : List Char × S × ℚ => (r.1.map f, r.2))
              (fun p : ℕ × S => (do
                let v ← pyGet st.vocabulary p.1
                let s ← nmdF R (.str q) (.str v) (.int 2) true true
                return (v, p.2, s) : Except PyErr (List Char × S × ℚ)))
              (mostCommon counter (v3TopK topK counter.length * 2))
            rw [← e1] at e2
            simp only [bind, Except.bind] at e2
            rw [e2]
            generalize List.mapM (m := Except PyErr) _
              (mostCommon counter (v3TopK topK counter.length * 2)) = r
            cases r with
            | error e => rfl
            | ok out => exact congrArg Except.ok (List.map_take ..).symm

theorem ci_v3AddWordF (st : V3) (v : PyVal) :
    (v3AddWordF R cf st v).1.caseInsensitive = st.caseInsensitive := by
  cases v with
  | int i => rfl
  | other => rfl
  | str w =>
    unfold v3AddWordF
    simp only
    split
    · rfl
    · split
      · rfl
      · split
        · rfl
        · have hr : (st.resolve cf (st.fold cf w) true).1.caseInsensitive = st.caseInsensitive := by
            unfold V3.resolve
            split
            · rfl
            · simp only
              split
              · rfl
              · simp only [Bool.not_true, Bool.false_eq_true, if_false]
                split <;> rfl
          generalize st.resolve cf (st.fold cf w) true = p at hr ⊢
          obtain ⟨st', r⟩ := p
          cases r <;> exact hr

theorem v3AddAllF_ren (h : CharRen f) (vs : List PyVal) : ∀ {st : V3},
    (st.caseInsensitive = true → ∀ w, cf (w.map f) = (cf w).map f) →
    v3AddAllF R cf (renV3 (List.map f) st) (vs.map (renVal (List.map f))) =
      renV3 (List.map f) (v3AddAllF R cf st vs) ∧
    (v3AddAllF R cf st vs).caseInsensitive = st.caseInsensitive := by
  induction vs with
  | nil => intro st _; exact ⟨rfl, rfl⟩
  | cons v vs ih =>
    intro st hcf
    have e : v3AddAllF R cf (renV3 (List.map f) st) ((v :: vs).map (renVal (List.map f))) =
        v3AddAllF R cf (v3AddWordF R cf (renV3 (List.map f) st) (renVal (List.map f) v)).1
          (vs.map (renVal (List.map f))) := rfl
    rw [e, v3AddWordF_ren h hcf]
    obtain ⟨h1, h2⟩ := ih (st := (v3AddWordF R cf st v).1) (by rwa [ci_v3AddWordF])
    exact ⟨h1, h2.trans (ci_v3AddWordF st v)⟩

/-- **C249.** The same for `ApproxWordListV3`; a lookup also returns the n-gram movers similarity of each word,
which is the same float too. -/
theorem C249_float_v3_rename {S : Type} [LinearOrder S] (agg : List ℚ → S) {n : NArg} {cs : Bool}
    {st₀ : V3} (h0 : V3.new n cs = .ok st₀)
    (hf : Function.Injective f) (hs : f stx = stx) (he : f etx = etx)
    (hcf : st₀.caseInsensitive = true → ∀ w, cf (w.map f) = (cf w).map f) (vs : List PyVal)
    (v : PyVal) (topK : Option ℤ) :
    (v3LookupF R agg cf (v3AddAllF R cf st₀ (vs.map (renVal (List.map f)))) (renVal (List.map f) v)
        topK =
      (v3LookupF R agg cf (v3AddAllF R cf st₀ vs) v topK).map
        (List.map fun r => (r.1.map f, r.2))) ∧
    (v3AddWordF R cf (v3AddAllF R cf st₀ (vs.map (renVal (List.map f)))) (renVal (List.map f) v)).2 =
      (v3AddWordF R cf (v3AddAllF R cf st₀ vs) v).2 := by
  have h : CharRen f := ⟨hf, hs, he⟩
  obtain ⟨h1, h2⟩ := v3AddAllF_ren (R := R) h vs (st := st₀) hcf
  have hn : renV3 (List.map f) st₀ = st₀ := by
    unfold V3.new at h0
    cases n with
    | other => cases h0
    | int n => injection h0 with h0; rw [← h0]; rfl
    | iter ns => injection h0 with h0; rw [← h0]; rfl
  rw [hn] at h1
  have hcf' : (v3AddAllF R cf st₀ vs).caseInsensitive = true →
      ∀ w, cf (w.map f) = (cf w).map f := by rwa [h2]
  rw [h1]
  exact ⟨v3LookupF_ren agg h hcf' v topK, by rw [v3AddWordF_ren h hcf']⟩

example : v3LookupF binary64 (mean1F binary64) id (list3F [2, 4] ["abnbnb", "abndbnb"])
      (.str "abnanb".toList) (some 1) =
    (v3LookupF binary64 (mean1F binary64) id (list3F [2, 4] ["banana", "bandana"])
      (.str "banbna".toList) (some 1)).map
      (List.map fun r => (r.1.map (Equiv.swap 'a' 'b'), r.2)) ∧
    (v3LookupF binary64 (mean1F binary64) id (list3F [2, 4] ["banana", "bandana"])
      (.str "banbna".toList) (some 1)).map (List.map Prod.fst) = .ok ["banana".toList] := by
  decide +kernel

end Fp
end Verif
