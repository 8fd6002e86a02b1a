import Verif.Index.Props
import Verif.Fp.RenameProps
import Verif.WordSet.SymProps

/-!
# Property C181: word lists of renamed words

The lookup follows the order of its dictionaries, so the proof renames the state: every step on the
renamed state does the same as the step on the state.
-/

namespace Verif

open GramSpec IndexSpec Fp

/-! ### Dictionaries -/

section

variable {κ ν : Type} [DecidableEq κ] {φ : κ → κ}

theorem get?_dmap_inj (hφ : Function.Injective φ) (d : Dict κ ν) (k : κ) :
    Dict.get? (dmap φ d) (φ k) = Dict.get? d k :=
  get?_dmap (S := Set.univ) hφ.injOn (Set.mem_univ _) fun _ _ => Set.mem_univ _

theorem set_dmap_inj (hφ : Function.Injective φ) (d : Dict κ ν) (k : κ) (v : ν) :
    Dict.set (dmap φ d) (φ k) v = dmap φ (Dict.set d k v) :=
  set_dmap (S := Set.univ) hφ.injOn (Set.mem_univ _) v fun _ _ => Set.mem_univ _

theorem appendTo_dmap (hφ : Function.Injective φ) (d : Dict κ (List ν)) (k : κ) (v : ν) :
    Dict.appendTo (dmap φ d) (φ k) v = dmap φ (Dict.appendTo d k v) := by
  unfold Dict.appendTo
  rw [get?_dmap_inj hφ, set_dmap_inj hφ]

theorem addToSet_dmap (hφ : Function.Injective φ) (d : Dict κ (List ℕ)) (k : κ) (i : ℕ) :
    addToSet (dmap φ d) (φ k) i = dmap φ (addToSet d k i) := by
  unfold addToSet
  rw [get?_dmap_inj hφ, set_dmap_inj hφ]

/-- A fold that commutes with renaming. -/
theorem foldl_ren {ι σ : Type} {ρ : σ → σ} {ψ : ι → ι} {f g : σ → ι → σ}
    (h : ∀ s i, f (ρ s) (ψ i) = ρ (g s i)) :
    ∀ (l : List ι) (s : σ), (l.map ψ).foldl f (ρ s) = ρ (l.foldl g s)
  | [], _ => rfl
  | i :: l, s => by
    rw [List.map_cons, List.foldl_cons, List.foldl_cons, h]
    exact foldl_ren h l _

theorem counter_dmap (hφ : Function.Injective φ) (xs : List κ) :
    counter (xs.map φ) = dmap φ (counter xs) := by
  unfold counter
  exact foldl_ren (ρ := dmap φ) (s := ([] : Dict κ ℕ))
    (fun d x => by rw [get?_dmap_inj hφ, set_dmap_inj hφ]) xs

end

theorem foldlM_congr_mem {ι σ : Type} {f g : σ → ι → Except PyErr σ} :
    ∀ {l : List ι}, (∀ i ∈ l, ∀ s, f s i = g s i) → ∀ s, l.foldlM f s = l.foldlM g s
  | [], _, _ => rfl
  | i :: l, h, s => by
    rw [List.foldlM_cons, List.foldlM_cons, h i List.mem_cons_self]
    congr 1
    funext s'
    exact foldlM_congr_mem (fun j hj => h j (List.mem_cons_of_mem _ hj)) s'

theorem zipIdx_map' {α β : Type} (g : α → β) (l : List α) :
    (l.map g).zipIdx = l.zipIdx.map fun p => (g p.1, p.2) := by
  apply List.ext_getElem
  · simp
  · intro i h1 h2
    simp

theorem pyGet_map {α β : Type} (g : α → β) (l : List α) (i : ℕ) :
    pyGet (l.map g) i = (pyGet l i).map g := by
  unfold pyGet
  rw [List.getElem?_map]
  cases l[i]? <;> rfl

/-! ### Renaming -/

/-- A renaming of characters that keeps different characters different and keeps the markers. -/
structure CharRen (f : Char → Char) : Prop where
  inj : Function.Injective f
  stx : f stx = stx
  etx : f etx = etx

theorem CharRen.map_inj {f : Char → Char} (h : CharRen f) : Function.Injective (List.map f) :=
  List.map_injective_iff.2 h.inj

theorem CharRen.mem_stx {f : Char → Char} (h : CharRen f) (w : List Char) :
    '\x02' ∈ w.map f ↔ '\x02' ∈ w := by
  conv_lhs => rw [show '\x02' = f '\x02' from h.stx.symm]
  exact List.mem_map_of_injective h.inj

theorem CharRen.mem_etx {f : Char → Char} (h : CharRen f) (w : List Char) :
    '\x03' ∈ w.map f ↔ '\x03' ∈ w := by
  conv_lhs => rw [show '\x03' = f '\x03' from h.etx.symm]
  exact List.mem_map_of_injective h.inj

theorem CharRen.clean {f : Char → Char} (h : CharRen f) (w : List Char) :
    Clean (w.map f) ↔ Clean w :=
  and_congr (not_congr (h.mem_stx w)) (not_congr (h.mem_etx w))

theorem CharRen.pad {f : Char → Char} (h : CharRen f) (w : List Char) :
    pad (w.map f) = (pad w).map f := by
  have h1 : f '\x02' = '\x02' := h.stx
  have h2 : f '\x03' = '\x03' := h.etx
  unfold Verif.pad
  simp [h1, h2]

theorem CharRen.getNGrams {f : Char → Char} (h : CharRen f) (w : List Char) (n : ℤ) :
    getNGrams (w.map f) n = (getNGrams w n).map (List.map f) := by
  unfold Verif.getNGrams
  rw [h.pad, List.length_map]
  split
  · rw [List.map_map]
    apply List.map_congr_left
    intro i _
    exact pySlice_map f _ _ _
  · simp [List.map_map, Function.comp_def]

theorem CharRen.checkWord {f : Char → Char} (h : CharRen f) (w : List Char) :
    checkWord (.str (w.map f)) = (checkWord (.str w)).map (List.map f) := by
  show (if '\x02' ∈ w.map f ∨ '\x03' ∈ w.map f then _ else _) =
    Except.map _ (if '\x02' ∈ w ∨ '\x03' ∈ w then _ else _)
  simp only [h.mem_stx, h.mem_etx]
  split <;> rfl

theorem CharRen.nmd {f : Char → Char} (h : CharRen f) (a b : List Char) (k : PyVal)
    (invert normalize : Bool) :
    nmd (.str (a.map f)) (.str (b.map f)) k invert normalize =
      nmd (.str a) (.str b) k invert normalize := by
  have bad : ∀ w : List Char, ¬ Clean w → Verif.checkWord (.str w) = .error .valueError := by
    intro w hw
    show (if '\x02' ∈ w ∨ '\x03' ∈ w then _ else _) = _
    rw [if_pos]
    by_contra hn
    rw [not_or] at hn
    exact hw hn
  have good : ∀ w : List Char, Clean w → Verif.checkWord (.str w) = .ok w := by
    intro w hw
    show (if '\x02' ∈ w ∨ '\x03' ∈ w then _ else _) = _
    rw [if_neg]
    rintro (h | h)
    · exact hw.1 h
    · exact hw.2 h
  by_cases ha : Clean a
  · by_cases hb : Clean b
    · exact C173_rename ha hb (fun c _ d _ e => h.inj e) ((h.clean a).2 ha) ((h.clean b).2 hb) k
        invert normalize
    · unfold Verif.nmd
      rw [good a ha, bad b hb, good _ ((h.clean a).2 ha), bad _ (fun e => hb ((h.clean b).1 e))]
      rfl
  · unfold Verif.nmd
    rw [bad a ha, bad _ (fun e => ha ((h.clean a).1 e))]
    rfl

/-! ### The state -/

/-- The state with all words renamed. -/
def renWL (φ : List Char → List Char) (st : WL) : WL :=
  { st with
    wordIndices := dmap φ st.wordIndices
    wordList := st.wordList.map φ
    ngramFilter := dmap φ st.ngramFilter
    ngramCounts := dmap φ st.ngramCounts
    ngramPositions := dmap φ st.ngramPositions }

section

variable {f : Char → Char} {cf : List Char → List Char}

theorem fold_ren {st : WL} (hcf : st.caseInsensitive = true → ∀ w, cf (w.map f) = (cf w).map f)
    (w : List Char) : (renWL (List.map f) st).fold cf (w.map f) = (st.fold cf w).map f := by
  unfold WL.fold
  show (if st.caseInsensitive = true then _ else _) = _
  split
  · rename_i h; exact hcf h w
  · rfl

theorem resolve_ren (h : CharRen f) {st : WL}
    (hcf : st.caseInsensitive = true → ∀ w, cf (w.map f) = (cf w).map f) (w : List Char) :
    (renWL (List.map f) st).resolve cf (w.map f) =
      (renWL (List.map f) (st.resolve cf w).1, (st.resolve cf w).2) := by
  unfold WL.resolve
  rw [List.length_map, fold_ren hcf]
  split
  · rfl
  · generalize st.fold cf w = v
    have e : Dict.get? (renWL (List.map f) st).wordIndices (v.map f) =
        Dict.get? st.wordIndices v := get?_dmap_inj h.map_inj _ _
    simp only
    rw [e]
    cases Dict.get? st.wordIndices v with
    | some i => rfl
    | none =>
      have e1 : Dict.set (dmap (List.map f) st.wordIndices) (v.map f) st.wordList.length =
        dmap (List.map f) (Dict.set st.wordIndices v st.wordList.length) := set_dmap_inj h.map_inj _ _ _
      have e2 : st.wordList.map (List.map f) ++ [v.map f] = (st.wordList ++ [v]).map (List.map f) := by
        rw [List.map_append]; rfl
      have e3 : (some (v.map f) : Option (List Char)) = (some v).map (List.map f) := rfl
      simp only [renWL, List.length_map, e1, e2, List.getElem?_map]
      rw [e3]
      simp only [(Option.map_injective h.map_inj).eq_iff, dmap, List.length_map]
      split <;> rfl

theorem addFilter_ren (h : CharRen f) (st : WL) (w : List Char) (idx : ℕ) :
    (renWL (List.map f) st).addFilter (w.map f) idx = renWL (List.map f) (st.addFilter w idx) := by
  unfold WL.addFilter
  show (if st.filterN ≠ 0 then _ else _) = _
  split
  · rw [h.getNGrams]
    have e : (renWL (List.map f) st).filterN = st.filterN := rfl
    rw [e, List.dedup_map_of_injective h.map_inj]
    have := foldl_ren (ρ := dmap (List.map f)) (ψ := List.map f)
      (f := fun d g => addToSet d g idx) (fun d g => addToSet_dmap h.map_inj d g idx)
      (Verif.getNGrams w st.filterN).dedup st.ngramFilter
    simp only [renWL] at *
    rw [this]
  · rfl

theorem addLocations_ren (h : CharRen f) (gs : List (List Char)) :
    addLocations (gs.map (List.map f)) = dmap (List.map f) (addLocations gs) := by
  unfold addLocations
  rw [List.length_map]
  split
  · rw [zipIdx_map']
    exact foldl_ren (ρ := dmap (List.map f)) (ψ := fun p : List Char × ℕ => (p.1.map f, p.2))
      (s := ([] : Dict (List Char) (List ℚ)))
      (fun d p => appendTo_dmap h.map_inj d p.1 _) gs.zipIdx
  · cases gs with
    | nil => rfl
    | cons g gs => rfl

theorem addItem_ren (h : CharRen f) (idx : ℕ) (st : WL) (item : List Char × List ℚ) :
    WL.addItem idx (renWL (List.map f) st) (item.1.map f, item.2) =
      renWL (List.map f) (WL.addItem idx st item) := by
  unfold WL.addItem
  simp only [renWL, appendTo_dmap h.map_inj]

theorem addGrams_ren (h : CharRen f) (st : WL) (w : List Char) (idx : ℕ) :
    (renWL (List.map f) st).addGrams (w.map f) idx = renWL (List.map f) (st.addGrams w idx) := by
  unfold WL.addGrams
  have := foldl_ren (ρ := renWL (List.map f)) (ψ := id)
    (f := fun st n => (addLocations (Verif.getNGrams (w.map f) n)).foldl (WL.addItem idx) st)
    (g := fun st n => (addLocations (Verif.getNGrams w n)).foldl (WL.addItem idx) st)
    (fun s n => by
      rw [id, h.getNGrams, addLocations_ren h]
      exact foldl_ren (fun s i => addItem_ren h idx s i) _ s) st.nList st
  rwa [List.map_id] at this

theorem addWord_ren (h : CharRen f) {st : WL}
    (hcf : st.caseInsensitive = true → ∀ w, cf (w.map f) = (cf w).map f) (v : PyVal) :
    (renWL (List.map f) st).addWord cf (renVal (List.map f) v) =
      (renWL (List.map f) (st.addWord cf v).1, (st.addWord cf v).2) := by
  cases v with
  | int i => rfl
  | other => rfl
  | str w =>
    unfold WL.addWord renVal
    simp only
    rw [List.length_map, fold_ren hcf]
    split
    · rfl
    · generalize st.fold cf w = v
      have e : Dict.has (renWL (List.map f) st).wordIndices (v.map f) =
          Dict.has st.wordIndices v := by
        exact congrArg Option.isSome (get?_dmap_inj h.map_inj _ _)
      rw [e]
      simp only [h.mem_stx, h.mem_etx]
      split
      · rfl
      · split
        · rfl
        · rw [resolve_ren h hcf]
          rcases st.resolve cf v with ⟨st', r⟩
          cases r with
          | error e => rfl
          | ok idx =>
            simp only
            rw [addFilter_ren h, addGrams_ren h]

/-! ### Lookups -/

theorem filterCandidates_ren (h : CharRen f) (st : WL) (q : List Char) :
    (renWL (List.map f) st).filterCandidates (q.map f) = st.filterCandidates q := by
  unfold WL.filterCandidates
  show (if st.filterN ≠ 0 then _ else _) = _
  split
  · rw [h.getNGrams]
    have e : (renWL (List.map f) st).filterN = st.filterN := rfl
    rw [e, List.dedup_map_of_injective h.map_inj, List.flatMap_map]
    apply List.flatMap_congr
    intro g _
    have : Dict.get? (renWL (List.map f) st).ngramFilter (g.map f) = Dict.get? st.ngramFilter g :=
      get?_dmap_inj h.map_inj _ _
    rw [this]
  · rfl

theorem minScores_ren (h : CharRen f) (st : WL) (q : List Char) (normalize : Bool) :
    (renWL (List.map f) st).minScores (q.map f) normalize = st.minScores q normalize := by
  unfold WL.minScores
  apply foldlM_congr_mem (l := st.nList.zipIdx)
  intro nk _ ms
  rw [h.getNGrams, counter_dmap h.map_inj, filterCandidates_ren h]
  unfold dmap
  rw [List.foldlM_map]
  apply foldlM_congr_mem
  intro gc _ ms
  have : Dict.get? (renWL (List.map f) st).ngramCounts (gc.1.map f) =
      Dict.get? st.ngramCounts gc.1 := get?_dmap_inj h.map_inj _ _
  simp only [this]
  apply foldlM_congr_mem
  intro e _ ms
  unfold WL.minStep
  rw [List.length_map]
  rfl

theorem queryLocations_ren (h : CharRen f) (gs : List (List Char)) :
    queryLocations (gs.map (List.map f)) = (queryLocations gs).map (dmap (List.map f)) := by
  unfold queryLocations
  rw [List.length_map, zipIdx_map']
  have key : ∀ (l : List (List Char × ℕ)) (d : Dict (List Char) (List ℚ)),
      (l.map fun p => (p.1.map f, p.2)).foldlM (fun d p =>
        if (gs.length : ℤ) - 1 = 0 then Except.error PyErr.zeroDivisionError
        else .ok (Dict.appendTo d p.1 ((p.2 : ℚ) / ((gs.length : ℚ) - 1)))) (dmap (List.map f) d) =
      (l.foldlM (fun d p =>
        if (gs.length : ℤ) - 1 = 0 then Except.error PyErr.zeroDivisionError
        else .ok (Dict.appendTo d p.1 ((p.2 : ℚ) / ((gs.length : ℚ) - 1)))) d).map
        (dmap (List.map f)) := by
    intro l
    induction l with
    | nil => intro d; rfl
    | cons p l ih =>
      intro d
      rw [List.map_cons, List.foldlM_cons, List.foldlM_cons]
      simp only
      split
      · rfl
      · rename_i hd
        rw [appendTo_dmap h.map_inj]
        have := ih (Dict.appendTo d p.1 ((p.2 : ℚ) / ((gs.length : ℚ) - 1)))
        simp only [if_neg hd] at this
        exact this
  exact key gs.zipIdx []

theorem matchScores_ren (h : CharRen f) (st : WL) (q : List Char) (possible : List ℕ) :
    (renWL (List.map f) st).matchScores (q.map f) possible = st.matchScores q possible := by
  unfold WL.matchScores
  apply foldlM_congr_mem (l := st.nList.zipIdx)
  intro nk _ ms
  rw [h.getNGrams, queryLocations_ren h]
  cases queryLocations (Verif.getNGrams q nk.1) with
  | error e => rfl
  | ok d =>
    show Except.ok _ = Except.ok _
    congr 1
    unfold dmap
    rw [List.foldl_map]
    congr 1
    funext ms gl
    have : Dict.get? (renWL (List.map f) st).ngramPositions (gl.1.map f) =
      Dict.get? st.ngramPositions gl.1 := get?_dmap_inj h.map_inj _ _
    rw [this]
    rfl

theorem normalizeRow_ren (st : WL) (q : List Char) (normalize : Bool) (p : ℕ × List ℚ) :
    (renWL (List.map f) st).normalizeRow (q.map f) normalize p = st.normalizeRow q normalize p := by
  unfold WL.normalizeRow
  rw [List.length_map]
  rfl

variable {S : Type} [LinearOrder S] (agg : List ℚ → S)

theorem lookupSimilarity_ren (h : CharRen f) (st : WL) (q : List Char) (k : ℕ) (normalize : Bool) :
    (renWL (List.map f) st).lookupSimilarity agg (q.map f) k normalize =
      st.lookupSimilarity agg q k normalize := by
  unfold WL.lookupSimilarity
  have e : (renWL (List.map f) st).normalizeRow (q.map f) normalize = st.normalizeRow q normalize :=
    funext fun p => normalizeRow_ren st q normalize p
  simp only [minScores_ren h, matchScores_ren h, e]

theorem checkLookup_ren (h : CharRen f) {st : WL}
    (hcf : st.caseInsensitive = true → ∀ w, cf (w.map f) = (cf w).map f) (v k : PyVal) :
    (renWL (List.map f) st).checkLookup cf (renVal (List.map f) v) k =
      (st.checkLookup cf v k).map fun p => (p.1.map f, p.2) := by
  cases v with
  | int i => rfl
  | other => rfl
  | str w =>
    unfold WL.checkLookup renVal
    simp only [List.length_map]
    split
    · rfl
    · cases k with
      | str _ => rfl
      | other => rfl
      | int k =>
        simp only
        rw [fold_ren hcf]
        simp only [h.mem_stx, h.mem_etx]
        split
        · rfl
        · split <;> rfl

omit [LinearOrder S] in
theorem rescore_ren (h : CharRen f) (st : WL) (q : List Char) (normalize : Bool) (p : ℕ × S) :
    (renWL (List.map f) st).rescore (q.map f) normalize p = st.rescore q normalize p := by
  unfold WL.rescore
  have : pyGet (renWL (List.map f) st).wordList p.1 = (pyGet st.wordList p.1).map (List.map f) :=
    pyGet_map _ _ _
  rw [this]
  cases pyGet st.wordList p.1 with
  | error e => rfl
  | ok w =>
    simp only [Except.map, bind, Except.bind]
    rw [h.nmd]

theorem mapM_map_out {α β γ : Type} (g : β → γ) (F : α → Except PyErr β) :
    ∀ l : List α, l.mapM (fun a => (F a).map g) = (l.mapM F).map (List.map g)
  | [] => rfl
  | a :: l => by
    rw [List.mapM_cons, List.mapM_cons, mapM_map_out g F l]
    cases F a with
    | error e => rfl
    | ok b => cases l.mapM F <;> rfl

theorem mapM_words {α T : Type} (st : WL) (f : Char → Char) (t : ℕ × α → T) (l : List (ℕ × α)) :
    l.mapM (fun p => do
      return (← pyGet (renWL (List.map f) st).wordList p.1, t p) :
        ℕ × α → Except PyErr (List Char × T)) =
      (l.mapM (fun p => do return (← pyGet st.wordList p.1, t p) :
        ℕ × α → Except PyErr (List Char × T))).map (List.map fun r => (r.1.map f, r.2)) := by
  rw [← mapM_map_out]
  congr 1
  funext p
  have : pyGet (renWL (List.map f) st).wordList p.1 =
    (pyGet st.wordList p.1).map (List.map f) := pyGet_map _ _ _
  rw [this]
  cases pyGet st.wordList p.1 <;> rfl

theorem lookup_ren (h : CharRen f) {st : WL}
    (hcf : st.caseInsensitive = true → ∀ w, cf (w.map f) = (cf w).map f) (v k : PyVal)
    (normalize : Bool) :
    (renWL (List.map f) st).lookup agg cf (renVal (List.map f) v) k normalize =
      (st.lookup agg cf v k normalize).map (List.map fun r => (r.1.map f, r.2)) := by
  unfold WL.lookup
  rw [checkLookup_ren h hcf]
  cases st.checkLookup cf v k with
  | error e => rfl
  | ok p =>
    obtain ⟨q, k⟩ := p
    simp only [Except.map, bind, Except.bind]
    rw [lookupSimilarity_ren agg h]
    cases st.lookupSimilarity agg q k normalize with
    | error e => rfl
    | ok scored =>
      simp only
      have e : (renWL (List.map f) st).rescore (S := S) (q.map f) normalize = st.rescore q normalize :=
        funext fun p => rescore_ren h st q normalize p
      rw [e]
      cases (mostCommon scored (k * 2)).mapM (st.rescore q normalize) with
      | error e => rfl
      | ok items =>
        exact mapM_words st f (fun p => p.2) _

theorem lookupV5_ren {S : Type} [Ring S] [LinearOrder S] (agg : List ℚ → S) (h : CharRen f) {st : WL}
    (hcf : st.caseInsensitive = true → ∀ w, cf (w.map f) = (cf w).map f) (v k : PyVal)
    (invert normalize : Bool) :
    (renWL (List.map f) st).lookupV5 agg cf (renVal (List.map f) v) k invert normalize =
      (st.lookupV5 agg cf v k invert normalize).map (List.map fun r => (r.1.map f, r.2)) := by
  unfold WL.lookupV5
  rw [checkLookup_ren h hcf]
  cases st.checkLookup cf v k with
  | error e => rfl
  | ok p =>
    obtain ⟨q, k⟩ := p
    simp only [Except.map, bind, Except.bind]
    rw [lookupSimilarity_ren agg h]
    cases st.lookupSimilarity agg q k normalize with
    | error e => rfl
    | ok scored =>
      have e := mapM_words st f (fun p : ℕ × S =>
        if invert = true then p.2 else (if normalize = true then 1 else 0) - p.2)
        (mostCommon scored (k * 2))
      simp only [bind, Except.bind] at e ⊢
      rw [e]
      generalize List.mapM (m := Except PyErr) (β := List Char × S) _ (mostCommon scored (k * 2)) = r
      cases r with
      | error e => rfl
      | ok out =>
        show Except.ok _ = Except.ok _
        congr 1
        unfold sortDesc
        symm
        apply List.map_insertionSort
        intro a _ b _
        rfl

theorem ci_resolve (st : WL) (w : List Char) :
    (st.resolve cf w).1.caseInsensitive = st.caseInsensitive := by
  unfold WL.resolve
  split
  · rfl
  · simp only
    split
    · rfl
    · split <;> rfl

theorem ci_addFilter (st : WL) (w : List Char) (idx : ℕ) :
    (st.addFilter w idx).caseInsensitive = st.caseInsensitive := by
  unfold WL.addFilter
  split <;> rfl

theorem ci_foldl_addItem (idx : ℕ) : ∀ (l : Dict (List Char) (List ℚ)) (st : WL),
    (l.foldl (WL.addItem idx) st).caseInsensitive = st.caseInsensitive
  | [], _ => rfl
  | x :: l, st => (ci_foldl_addItem idx l (st.addItem idx x)).trans rfl

theorem ci_foldl_grams (loc : ℤ → Dict (List Char) (List ℚ)) (idx : ℕ) :
    ∀ (ns : List ℤ) (st : WL),
    (ns.foldl (fun st n => (loc n).foldl (WL.addItem idx) st) st).caseInsensitive =
      st.caseInsensitive
  | [], _ => rfl
  | _ :: ns, _ => (ci_foldl_grams loc idx ns _).trans (ci_foldl_addItem idx _ _)

theorem ci_addWord (st : WL) (v : PyVal) :
    (st.addWord cf v).1.caseInsensitive = st.caseInsensitive := by
  cases v with
  | int i => rfl
  | other => rfl
  | str w =>
    unfold WL.addWord
    simp only
    split
    · rfl
    · split
      · rfl
      · split
        · rfl
        · have := ci_resolve (cf := cf) st (st.fold cf w)
          generalize st.resolve cf (st.fold cf w) = p at this ⊢
          obtain ⟨st', r⟩ := p
          cases r with
          | error e => exact this
          | ok idx => exact (ci_foldl_grams _ idx _ _).trans ((ci_addFilter _ _ _).trans this)

/-- Replace the words in a call. -/
def renWLOp (φ : List Char → List Char) : WLOp → WLOp
  | .add v => .add (renVal φ v)
  | .lookup v k normalize => .lookup (renVal φ v) k normalize

theorem run_ren (h : CharRen f) : ∀ (ops : List WLOp) {st : WL},
    (st.caseInsensitive = true → ∀ w, cf (w.map f) = (cf w).map f) →
    (renWL (List.map f) st).run cf (ops.map (renWLOp (List.map f))) =
      renWL (List.map f) (st.run cf ops) ∧
    (st.run cf ops).caseInsensitive = st.caseInsensitive
  | [], _, _ => ⟨rfl, rfl⟩
  | .add v :: ops, st, hcf => by
    have e : (renWL (List.map f) st).run cf ((WLOp.add v :: ops).map (renWLOp (List.map f))) =
        ((renWL (List.map f) st).addWord cf (renVal (List.map f) v)).1.run cf
          (ops.map (renWLOp (List.map f))) := rfl
    rw [e, addWord_ren h hcf]
    obtain ⟨h1, h2⟩ := run_ren h ops (st := (st.addWord cf v).1) (by rwa [ci_addWord])
    exact ⟨h1, h2.trans (ci_addWord st v)⟩
  | .lookup _ _ _ :: ops, st, hcf => run_ren h ops hcf

theorem renWL_new {n : NArg} {cs : Bool} {fn : ℤ} {st₀ : WL} (h0 : WL.new n cs fn = .ok st₀)
    (φ : List Char → List Char) : renWL φ st₀ = st₀ := by
  unfold WL.new at h0
  cases hm : mkNList n with
  | error e => rw [hm] at h0; cases h0
  | ok l =>
    rw [hm] at h0
    injection h0 with h0
    rw [← h0]
    rfl

/-- **C181.** A word list does not care which characters the words are made of: after the same calls
with all words renamed by an injective map of characters that keeps the markers, adding and looking up
renamed words gives the same results with renamed words, in the same order (also among equal scores)
and with the same scores; exceptions included. Case folding, if used, must commute with the map. -/
theorem C181_rename {n : NArg} {cs : Bool} {fn : ℤ} {st₀ : WL} (h0 : WL.new n cs fn = .ok st₀)
    (hf : Function.Injective f) (hs : f stx = stx) (he : f etx = etx)
    (hcf : st₀.caseInsensitive = true → ∀ w, cf (w.map f) = (cf w).map f) (ops : List WLOp)
    (v k : PyVal) (normalize : Bool) :
    ((st₀.run cf (ops.map (renWLOp (List.map f)))).lookup agg cf (renVal (List.map f) v) k normalize =
      ((st₀.run cf ops).lookup agg cf v k normalize).map (List.map fun r => (r.1.map f, r.2))) ∧
    ((st₀.run cf (ops.map (renWLOp (List.map f)))).addWord cf (renVal (List.map f) v)).2 =
      ((st₀.run cf ops).addWord cf v).2 ∧
    (st₀.run cf (ops.map (renWLOp (List.map f)))).vocabulary.Perm
      ((st₀.run cf ops).vocabulary.map (List.map f)) := by
  have h : CharRen f := ⟨hf, hs, he⟩
  obtain ⟨h1, h2⟩ := run_ren h ops (st := st₀) hcf
  rw [renWL_new h0] at h1
  have hcf' : (st₀.run cf ops).caseInsensitive = true → ∀ w, cf (w.map f) = (cf w).map f := by
    rwa [h2]
  rw [h1]
  refine ⟨lookup_ren agg h hcf' v k normalize, by rw [addWord_ren h hcf'], ?_⟩
  exact (List.perm_insertionSort _ _).trans ((List.perm_insertionSort _ _).map _).symm

/-- **C181.** The same for the lookup of `ApproxWordListV5`. -/
theorem C181_rename_v5 {S : Type} [Ring S] [LinearOrder S] (agg : List ℚ → S) {n : NArg} {cs : Bool}
    {fn : ℤ} {st₀ : WL} (h0 : WL.new n cs fn = .ok st₀)
    (hf : Function.Injective f) (hs : f stx = stx) (he : f etx = etx)
    (hcf : st₀.caseInsensitive = true → ∀ w, cf (w.map f) = (cf w).map f) (ops : List WLOp)
    (v k : PyVal) (invert normalize : Bool) :
    (st₀.run cf (ops.map (renWLOp (List.map f)))).lookupV5 agg cf (renVal (List.map f) v) k invert
        normalize =
      ((st₀.run cf ops).lookupV5 agg cf v k invert normalize).map
        (List.map fun r => (r.1.map f, r.2)) := by
  have h : CharRen f := ⟨hf, hs, he⟩
  obtain ⟨h1, h2⟩ := run_ren h ops (st := st₀) hcf
  rw [renWL_new h0] at h1
  rw [h1]
  exact lookupV5_ren agg h (by rwa [h2]) v k invert normalize

end

/-- Words for the examples. -/
def symWords : List WLOp := ["banana", "bandana", "abba"].map fun s => .add (.str s.toList)

/-- A new case-sensitive list with sizes 2 and 4. -/
def symList : WL :=
  match WL.new (.iter [4, 2]) true 3 with
  | .ok st => st
  | .error _ => ⟨[], true, 0, [], [], [], [], [], [], []⟩

example : (symList.run id (symWords.map (renWLOp (List.map (Equiv.swap 'a' 'b'))))).lookup mean1 id
      (.str "abnanb".toList) (.int 2) true =
    ((symList.run id symWords).lookup mean1 id (.str "banbna".toList) (.int 2) true).map
      (List.map fun r => (r.1.map (Equiv.swap 'a' 'b'), r.2)) := by
  decide +kernel

example : ((symList.run id symWords).lookup mean1 id (.str "banbna".toList) (.int 2) true).map
    (List.map Prod.fst) = .ok ["banana".toList, "bandana".toList] := by
  decide +kernel

end Verif
