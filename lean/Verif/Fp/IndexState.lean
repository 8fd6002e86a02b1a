import Verif.Fp.IndexModel
import Verif.Fp.Nmd

/-!
# The state of a word list with floats: the exact state with rounded positions
-/

namespace Verif
namespace Fp

open GramSpec IndexSpec

variable {R : FOps} {cf : List Char → List Char}

/-- An entry with rounded positions. -/
def flEntry (R : FOps) (e : ℕ × List ℚ) : ℕ × List ℚ := (e.1, e.2.map R.fl)

/-- `Q` holds the positions of `P`, rounded. -/
def RoundedPos (R : FOps) (P Q : Dict (List Char) (List (ℕ × List ℚ))) : Prop :=
  ∀ g, (Dict.get? Q g).getD [] = ((Dict.get? P g).getD []).map (flEntry R)

/-- `stF` is `st` with rounded positions. -/
def Rounded (R : FOps) (st stF : WL) : Prop :=
  ∃ Q, stF = { st with ngramPositions := Q } ∧ RoundedPos R st.ngramPositions Q

/-- The n-grams of a list with their rounded positions. -/
def locatedOfF (R : FOps) (gs : List (List Char)) : List (List Char × ℚ) :=
  (locatedOf gs).map fun p => (p.1, R.fl p.2)

theorem locs_locatedOfF (gs : List (List Char)) (g : List Char) :
    Dict.locs (locatedOfF R gs) g = (Dict.locs (locatedOf gs) g).map R.fl := by
  simp only [Dict.locs, locatedOfF, List.filter_map, List.map_map]
  rfl

theorem map_fst_locatedOfF (gs : List (List Char)) :
    (locatedOfF R gs).map Prod.fst = gs := by
  rw [locatedOfF, List.map_map]
  exact map_fst_locatedOf gs

theorem addLocationsF_eq (gs : List (List Char)) :
    addLocationsF R gs = Dict.group (locatedOfF R gs) := by
  unfold addLocationsF
  split
  · rename_i h
    unfold Dict.group locatedOfF locatedOf
    rw [List.foldl_map, List.foldl_map]
    apply List.foldl_ext
    intro d p _
    rw [relPos_of_two_le (by omega)]
  · rename_i h
    match gs, h with
    | [], _ => rfl
    | [g], _ =>
      simp [locatedOfF, locatedOf, Dict.group, relPos, R.zero]
    | _ :: _ :: _, h => simp at h

theorem queryLocationsF_eq (gs : List (List Char)) :
    queryLocationsF R gs =
      if gs.length = 1 then .error .zeroDivisionError
      else .ok (Dict.group (locatedOfF R gs)) := by
  unfold queryLocationsF
  by_cases h1 : gs.length = 1
  · rw [if_pos h1]
    match gs, h1 with
    | [g], _ => rfl
  · rw [if_neg h1, foldlM_ok (g := fun d p => Dict.appendTo d p.1
      (R.fl ((p.2 : ℚ) / ((gs.length : ℚ) - 1))))]
    · congr 1
      unfold Dict.group locatedOfF locatedOf
      rw [List.foldl_map, List.foldl_map]
      apply List.foldl_ext
      intro d p hp
      have : p.2 < gs.length := by
        have := List.mem_zipIdx (x := p.1) (i := p.2) hp
        omega
      rw [relPos_of_two_le (by omega)]
    · intro b a _
      rw [if_neg]
      omega

/-- The keys of the two dictionaries of locations are the same. -/
theorem group_locatedOfF (gs : List (List Char)) :
    Dict.group (locatedOfF R gs) =
      (Dict.group (locatedOf gs)).map (fun p => (p.1, p.2.map R.fl)) := by
  have key : ∀ (L : List (List Char × ℚ)) (d d' : Dict (List Char) (List ℚ)),
      d' = d.map (fun p => (p.1, p.2.map R.fl)) →
      (L.map fun p => (p.1, R.fl p.2)).foldl (fun d p => Dict.appendTo d p.1 p.2) d' =
        (L.foldl (fun d p => Dict.appendTo d p.1 p.2) d).map (fun p => (p.1, p.2.map R.fl)) := by
    intro L
    induction L with
    | nil => rintro d d' rfl; rfl
    | cons p L ih =>
      rintro d d' rfl
      rw [List.map_cons, List.foldl_cons, List.foldl_cons]
      apply ih
      have hg : ∀ d : Dict (List Char) (List ℚ),
          Dict.get? (d.map fun p => (p.1, p.2.map R.fl)) p.1 =
            (Dict.get? d p.1).map (List.map R.fl) := by
        intro d
        induction d with
        | nil => rfl
        | cons e d ihd =>
          obtain ⟨k, v⟩ := e
          rw [List.map_cons]
          simp only [Dict.get?]
          split
          · rfl
          · exact ihd
      have hs : ∀ (d : Dict (List Char) (List ℚ)) (v : List ℚ),
          Dict.set (d.map fun p => (p.1, p.2.map R.fl)) p.1 (v.map R.fl) =
            (Dict.set d p.1 v).map (fun p => (p.1, p.2.map R.fl)) := by
        intro d v
        induction d with
        | nil => rfl
        | cons e d ihd =>
          obtain ⟨k, v'⟩ := e
          rw [List.map_cons]
          simp only [Dict.set]
          split
          · rfl
          · rw [List.map_cons, ihd]
      unfold Dict.appendTo
      rw [hg, ← hs]
      congr 1
      cases Dict.get? d p.1 <;> simp
  exact key (locatedOf gs) [] [] rfl

theorem addGramsF_eq (st : WL) (w : List Char) (idx : ℕ) :
    addGramsF R st w idx =
      ((gramItems st.nList w).map (fun p => (p.1, p.2.map R.fl))).foldl (WL.addItem idx) st := by
  unfold addGramsF gramItems
  rw [List.map_flatMap, List.foldl_flatMap]
  simp only [addLocationsF_eq, group_locatedOfF]

theorem resolve_pos (st : WL) (Q : Dict (List Char) (List (ℕ × List ℚ))) (w : List Char) :
    WL.resolve cf { st with ngramPositions := Q } w =
      ({ (st.resolve cf w).1 with ngramPositions := Q }, (st.resolve cf w).2) := by
  obtain ⟨a, b, c, d, e, f, g, h, i, j⟩ := st
  have key : ∀ w', (match Dict.get? d w' with
      | some i' => ((⟨a, b, c, d, e, f, g, h, i, Q⟩ : WL), (Except.ok i' : Except PyErr ℕ))
      | none =>
        if (Dict.set d w' e.length).length = (e ++ [w']).length ∧ (e ++ [w']).length = e.length + 1 ∧
          (e ++ [w'])[e.length]? = some w' ∧ (f ++ [w'.length])[e.length]? = some w'.length then
          ((⟨a, b, c, Dict.set d w' e.length, e ++ [w'], f ++ [w'.length],
            g ++ [a.map (numGrams w'.length)], h, i, Q⟩ : WL), .ok e.length)
        else
          ((⟨a, b, c, Dict.set d w' e.length, e ++ [w'], f ++ [w'.length],
            g ++ [a.map (numGrams w'.length)], h, i, Q⟩ : WL), .error .assertionError)) =
      (let r := (match Dict.get? d w' with
      | some i' => ((⟨a, b, c, d, e, f, g, h, i, j⟩ : WL), (Except.ok i' : Except PyErr ℕ))
      | none =>
        if (Dict.set d w' e.length).length = (e ++ [w']).length ∧ (e ++ [w']).length = e.length + 1 ∧
          (e ++ [w'])[e.length]? = some w' ∧ (f ++ [w'.length])[e.length]? = some w'.length then
          ((⟨a, b, c, Dict.set d w' e.length, e ++ [w'], f ++ [w'.length],
            g ++ [a.map (numGrams w'.length)], h, i, j⟩ : WL), .ok e.length)
        else
          ((⟨a, b, c, Dict.set d w' e.length, e ++ [w'], f ++ [w'.length],
            g ++ [a.map (numGrams w'.length)], h, i, j⟩ : WL), .error .assertionError))
       ({ r.1 with ngramPositions := Q }, r.2)) := by
    intro w'
    cases Dict.get? d w' with
    | some i' => rfl
    | none =>
      simp only
      split <;> rfl
  unfold WL.resolve
  split
  · rfl
  · exact key _

theorem addFilter_pos (st : WL) (Q : Dict (List Char) (List (ℕ × List ℚ))) (w : List Char) (i : ℕ) :
    WL.addFilter { st with ngramPositions := Q } w i =
      { st.addFilter w i with ngramPositions := Q } := by
  unfold WL.addFilter
  split
  · rfl
  · rfl

theorem addFilter_positions (st : WL) (w : List Char) (i : ℕ) :
    (st.addFilter w i).ngramPositions = st.ngramPositions := by
  unfold WL.addFilter; split <;> rfl

theorem resolve_positions (st : WL) (w : List Char) :
    (st.resolve cf w).1.ngramPositions = st.ngramPositions := by
  unfold WL.resolve
  split
  · rfl
  · simp only
    split
    · rfl
    · split <;> rfl

theorem addGramsF_rounded {st stF : WL} (h : Rounded R st stF) (w : List Char) (idx : ℕ) :
    Rounded R (st.addGrams w idx) (addGramsF R stF w idx) := by
  obtain ⟨Q, rfl, hQ⟩ := h
  rw [addGrams_eq, addGramsF_eq, foldl_addItem, foldl_addItem]
  simp only [List.foldl_map, List.length_map]
  refine ⟨_, rfl, ?_⟩
  intro g
  simp only
  rw [getD_foldl_appendTo (f := fun it : List Char × List ℚ => it.1)
      (v := fun it : List Char × List ℚ => (idx, it.2.map R.fl)),
    getD_foldl_appendTo (f := fun it : List Char × List ℚ => it.1)
      (v := fun it : List Char × List ℚ => (idx, it.2)), hQ, List.map_append, List.map_map]
  rfl

/-- Adding a word to the rounded list does what it does to the exact one. -/
theorem addWordF_rounded {st stF : WL} (h : Rounded R st stF) (v : PyVal) :
    Rounded R (st.addWord cf v).1 (addWordF R cf stF v).1 ∧
      (addWordF R cf stF v).2 = (st.addWord cf v).2 := by
  have h0 := h
  obtain ⟨Q, rfl, hQ⟩ := h
  cases v with
  | int i => exact ⟨h0, rfl⟩
  | other => exact ⟨h0, rfl⟩
  | str w =>
    unfold addWordF WL.addWord
    have hfold : WL.fold cf { st with ngramPositions := Q } w = st.fold cf w := rfl
    simp only [hfold]
    generalize st.fold cf w = w'
    split
    · exact ⟨h0, rfl⟩
    split
    · exact ⟨h0, rfl⟩
    split
    · exact ⟨h0, rfl⟩
    · rw [resolve_pos st Q w']
      have hp := resolve_positions (cf := cf) st w'
      cases hr : (st.resolve cf w') with
      | mk st' o =>
        rw [hr] at hp
        cases o with
        | error e =>
          refine ⟨⟨Q, rfl, ?_⟩, rfl⟩
          simp only at hp ⊢
          rw [hp]; exact hQ
        | ok idx =>
          refine ⟨?_, rfl⟩
          apply addGramsF_rounded
          refine ⟨Q, addFilter_pos st' Q w' idx, ?_⟩
          rw [addFilter_positions]
          simp only at hp
          rw [hp]; exact hQ

theorem runF_rounded {st stF : WL} (h : Rounded R st stF) (ops : List WLOp) :
    Rounded R (st.run cf ops) (runF R cf stF ops) := by
  induction ops using List.reverseRecOn with
  | nil => exact h
  | append_singleton ops op ih =>
    rw [run_append_singleton]
    unfold runF at ih ⊢
    rw [List.foldl_append, List.foldl_cons, List.foldl_nil]
    cases op with
    | add v => exact (addWordF_rounded ih v).1
    | lookup _ _ _ => exact ih

/-- Every reachable state is a reachable exact state with rounded positions. -/
theorem ReachableF.rounded {stF : WL} (h : ReachableF R cf stF) :
    ∃ st, st.Reachable cf ∧ Rounded R st stF := by
  obtain ⟨n, cs, fn, st₀, ops, h0, rfl⟩ := h
  refine ⟨st₀.run cf ops, ⟨n, cs, fn, st₀, ops, h0, rfl⟩, runF_rounded ?_ ops⟩
  refine ⟨st₀.ngramPositions, rfl, ?_⟩
  intro g
  unfold WL.new at h0
  cases hm : mkNList n with
  | error e => rw [hm] at h0; cases h0
  | ok l =>
    rw [hm] at h0
    injection h0 with h0
    subst h0
    rfl

end Fp
end Verif
