import Verif.Memo.Lemmas

/-!
# Helper lemmas: without caches the methods are those of the other models
-/

namespace Verif.Memo

variable {α β : Type}

theorem numsP_insens (l : ℕ) (ns : List ℤ) : Insens (numsP l ns) := by
  induction ns with
  | nil => exact .ret _
  | cons n ns ih =>
    exact .nums _ _ _ (fun v => Insens.bind ih fun _ => .ret _) (fun v v' h => by rw [h])

theorem runU_numsP (l : ℕ) (ns : List ℤ) : runU (numsP l ns) = ns.map (numGrams l) := by
  induction ns with
  | nil => rfl
  | cons n ns ih =>
    rw [numsP, runU, runU_bind, ih]
    rfl

theorem resolveP_insens (cf : List Char → List Char) (st : WL) (w : List Char) :
    Insens (resolveP cf st w) := by
  unfold resolveP
  split
  · exact .ret _
  · simp only
    split
    · exact .ret _
    · refine Insens.bind (numsP_insens _ _) fun ns => ?_
      split <;> exact .ret _

theorem runU_resolveP (cf : List Char → List Char) (st : WL) (w : List Char) :
    runU (resolveP cf st w) = st.resolve cf w := by
  unfold resolveP WL.resolve
  split
  · rfl
  · simp only
    cases h : Dict.get? st.wordIndices (st.fold cf w) with
    | some i => rfl
    | none =>
      simp only
      rw [runU_bind, runU_numsP]
      split <;> rfl

theorem addFilterP_insens (st : WL) (w : List Char) (idx : ℕ) : Insens (addFilterP st w idx) := by
  unfold addFilterP
  split
  · refine Insens.bind (.grams _ _ _ fun _ => .ret _) fun r => ?_
    cases r <;> exact .ret _
  · exact .ret _

theorem runU_addFilterP (st : WL) (w : List Char) (idx : ℕ) :
    runU (addFilterP st w idx) = (st.addFilter w idx, .ok ()) := by
  unfold addFilterP WL.addFilter
  split <;> rfl

theorem addGramsP_insens (w : List Char) (idx : ℕ) (ns : List ℤ) (st : WL) :
    Insens (addGramsP w idx ns st) := by
  induction ns generalizing st with
  | nil => exact .ret _
  | cons n ns ih =>
    refine Insens.bind (.grams _ _ _ fun _ => .ret _) fun r => ?_
    cases r with
    | error e => exact .ret _
    | ok gs => exact ih _

theorem runU_addGramsP (w : List Char) (idx : ℕ) (ns : List ℤ) (st : WL) :
    runU (addGramsP w idx ns st) =
      (ns.foldl (fun st n => (addLocations (getNGrams w n)).foldl (WL.addItem idx) st) st,
        .ok ()) := by
  induction ns generalizing st with
  | nil => rfl
  | cons n ns ih =>
    rw [addGramsP, runU_bind]
    exact ih _

theorem addWordP_insens (cf : List Char → List Char) (st : WL) (word : PyVal) :
    Insens (addWordP cf st word) := by
  unfold addWordP
  split
  · split
    · exact .ret _
    · simp only
      split
      · exact .ret _
      · split
        · exact .ret _
        · refine Insens.bind (resolveP_insens _ _ _) fun r => ?_
          obtain ⟨st', r⟩ := r
          cases r with
          | error e => exact .ret _
          | ok idx =>
            refine Insens.bind (addFilterP_insens _ _ _) fun r => ?_
            obtain ⟨st'', r⟩ := r
            cases r with
            | error e => exact .ret _
            | ok _ => exact addGramsP_insens _ _ _ _
  · exact .ret _

theorem addFilter_nList (st : WL) (w : List Char) (idx : ℕ) :
    (st.addFilter w idx).nList = st.nList := by
  unfold WL.addFilter; split <;> rfl

theorem runU_addWordP (cf : List Char → List Char) (st : WL) (word : PyVal) :
    runU (addWordP cf st word) = st.addWord cf word := by
  unfold addWordP WL.addWord
  cases word with
  | str w =>
    simp only
    split
    · rfl
    · split
      · rfl
      · split
        · rfl
        · rw [runU_bind, runU_resolveP]
          rcases st.resolve cf (st.fold cf w) with ⟨st', r⟩
          cases r with
          | error e => rfl
          | ok idx =>
            simp only
            rw [runU_bind, runU_addFilterP]
            simp only
            rw [runU_addGramsP]
            rfl
  | _ => rfl

/-! ## Lookups -/

theorem filterP_insens (st : WL) (q : List Char) : InsensP (filterP st q) := by
  unfold filterP
  exact InsensP.ite (InsensP.bind (InsensP.tryGrams _ _) fun _ => InsensP.pure _) (InsensP.pure _)

theorem U_filterP (st : WL) (q : List Char) : U (filterP st q) = .ok (st.filterCandidates q) := by
  unfold filterP WL.filterCandidates
  split <;> rfl

theorem minStepP_insens (st : WL) (q : List Char) (nm : Bool) (ps : List ℕ) (n : ℤ) (k c : ℕ)
    (ms : Dict ℕ (List ℚ)) (e : ℕ × ℕ) : InsensP (minStepP st q nm ps n k c ms e) := by
  unfold minStepP
  refine InsensP.ite (InsensP.pure _) (InsensP.ite ?_ (InsensP.pure _))
  refine InsensP.bind (InsensP.tryNums _ _) fun _ => InsensP.bind (InsensP.liftE _) fun _ =>
    InsensP.bind (InsensP.liftE _) fun _ => ?_
  exact InsensP.ite (InsensP.liftE _) (InsensP.pure _)

theorem okBind {ε : Type} (a : α) (f : α → Except ε β) : (Except.ok a >>= f) = f a := rfl

theorem U_minStepP (st : WL) (q : List Char) (nm : Bool) (ps : List ℕ) (n : ℤ) (k c : ℕ)
    (ms : Dict ℕ (List ℚ)) (e : ℕ × ℕ) :
    U (minStepP st q nm ps n k c ms e) = st.minStep q nm ps n k c ms e := by
  unfold minStepP WL.minStep
  simp only [U_ite, U_bind, U_pure, U_liftE, U_tryNums, okBind]

theorem minScoresP_insens (st : WL) (q : List Char) (nm : Bool) :
    InsensP (minScoresP st q nm) := by
  unfold minScoresP
  refine InsensP.bind (filterP_insens _ _) fun ps => InsensP.foldlM (fun ms nk => ?_) _ _
  refine InsensP.bind (InsensP.tryGrams _ _) fun gs => InsensP.foldlM (fun ms gc => ?_) _ _
  exact InsensP.foldlM (fun ms e => minStepP_insens _ _ _ _ _ _ _ _ _) _ _

theorem U_minScoresP (st : WL) (q : List Char) (nm : Bool) :
    U (minScoresP st q nm) = st.minScores q nm := by
  unfold minScoresP WL.minScores
  simp only [U_bind, U_filterP, okBind, U_foldlM, U_tryGrams, U_minStepP]

theorem matchScoresP_insens (st : WL) (q : List Char) (ps : List ℕ) :
    InsensP (matchScoresP st q ps) := by
  unfold matchScoresP
  refine InsensP.foldlM (fun ms nk => ?_) _ _
  exact InsensP.bind (InsensP.tryGrams _ _) fun gs => InsensP.bind (InsensP.liftE _) fun _ =>
    InsensP.pure _

theorem U_matchScoresP (st : WL) (q : List Char) (ps : List ℕ) :
    U (matchScoresP st q ps) = st.matchScores q ps := by
  unfold matchScoresP WL.matchScores
  simp only [U_bind, okBind, U_foldlM, U_tryGrams, U_liftE, U_pure]
  rfl

theorem normalizeRowP_insens (st : WL) (q : List Char) (nm : Bool) (p : ℕ × List ℚ) :
    InsensP (normalizeRowP st q nm p) := by
  unfold normalizeRowP
  refine InsensP.bind (InsensP.liftE _) fun _ => InsensP.ite ?_ (InsensP.pure _)
  refine InsensP.bind (InsensP.mapM (fun nk => ?_) _) fun _ => InsensP.pure _
  refine InsensP.bind (InsensP.liftE _) fun _ => InsensP.bind (InsensP.tryNums _ _) fun _ =>
    InsensP.bind (InsensP.tryNums _ _) fun _ => InsensP.ite (InsensP.liftE _) (InsensP.pure _)

theorem U_normalizeRowP (st : WL) (q : List Char) (nm : Bool) (p : ℕ × List ℚ) :
    U (normalizeRowP st q nm p) = st.normalizeRow q nm p := by
  unfold normalizeRowP WL.normalizeRow
  simp only [U_bind, U_ite, okBind, U_mapM, U_tryNums, U_liftE, U_pure]
  rfl

theorem lookupSimilarityP_insens {S : Type} [LinearOrder S] (agg : List ℚ → S) (st : WL)
    (q : List Char) (k : ℕ) (nm : Bool) : InsensP (lookupSimilarityP agg st q k nm) := by
  unfold lookupSimilarityP
  refine InsensP.ite (InsensP.liftE _) (InsensP.bind (minScoresP_insens _ _ _) fun ms => ?_)
  refine InsensP.ite (InsensP.pure _) (InsensP.bind (InsensP.liftE _) fun t => ?_)
  refine InsensP.bind (matchScoresP_insens _ _ _) fun _ => ?_
  exact InsensP.bind (InsensP.mapM (fun _ => normalizeRowP_insens _ _ _ _) _) fun _ =>
    InsensP.pure _

theorem U_lookupSimilarityP {S : Type} [LinearOrder S] (agg : List ℚ → S) (st : WL)
    (q : List Char) (k : ℕ) (nm : Bool) :
    U (lookupSimilarityP agg st q k nm) = st.lookupSimilarity agg q k nm := by
  unfold lookupSimilarityP WL.lookupSimilarity
  simp only [U_bind, U_ite, U_mapM, U_liftE, U_pure, U_minScoresP, U_matchScoresP,
    U_normalizeRowP]
  split
  · rfl
  · rfl

theorem lookupP_insens {S : Type} [LinearOrder S] (agg : List ℚ → S) (cf : List Char → List Char)
    (st : WL) (word topK : PyVal) (nm : Bool) : InsensP (lookupP agg cf st word topK nm) := by
  unfold lookupP
  exact InsensP.bind (InsensP.liftE _) fun _ => InsensP.bind (lookupSimilarityP_insens _ _ _ _ _)
    fun _ => InsensP.liftE _

theorem U_lookupP {S : Type} [LinearOrder S] (agg : List ℚ → S) (cf : List Char → List Char)
    (st : WL) (word topK : PyVal) (nm : Bool) :
    U (lookupP agg cf st word topK nm) = st.lookup agg cf word topK nm := by
  unfold lookupP WL.lookup
  simp only [U_bind, U_liftE, U_lookupSimilarityP]

theorem lookupV5P_insens {S : Type} [Ring S] [LinearOrder S] (agg : List ℚ → S)
    (cf : List Char → List Char) (st : WL) (word topK : PyVal) (inv nm : Bool) :
    InsensP (lookupV5P agg cf st word topK inv nm) := by
  unfold lookupV5P
  exact InsensP.bind (InsensP.liftE _) fun _ => InsensP.bind (lookupSimilarityP_insens _ _ _ _ _)
    fun _ => InsensP.liftE _

theorem U_lookupV5P {S : Type} [Ring S] [LinearOrder S] (agg : List ℚ → S)
    (cf : List Char → List Char) (st : WL) (word topK : PyVal) (inv nm : Bool) :
    U (lookupV5P agg cf st word topK inv nm) = st.lookupV5 agg cf word topK inv nm := by
  unfold lookupV5P WL.lookupV5
  simp only [U_bind, U_liftE, U_lookupSimilarityP]

/-! ## V5b -/

theorem v5bResolveP_insens (st : WL) (w : List Char) : Insens (v5bResolveP st w) := by
  unfold v5bResolveP
  split
  · exact .ret _
  · split
    · exact .ret _
    · exact Insens.bind (numsP_insens _ _) fun ns => .ret _

theorem runU_v5bResolveP (st : WL) (w : List Char) :
    runU (v5bResolveP st w) = st.v5bResolve w := by
  unfold v5bResolveP WL.v5bResolve
  split
  · rfl
  · cases h : Dict.get? st.wordIndices w with
    | some i => rfl
    | none =>
      simp only
      rw [runU_bind, runU_numsP]
      rfl

theorem v5bAddGramsP_insens (w : List Char) (idx : ℕ) (ns : List ℤ) (st : WL) :
    Insens (v5bAddGramsP w idx ns st) := by
  induction ns generalizing st with
  | nil => exact .ret _
  | cons n ns ih =>
    refine Insens.bind (.grams _ _ _ fun _ => .ret _) fun r => ?_
    cases r with
    | error e => exact .ret _
    | ok gs => exact ih _

theorem runU_v5bAddGramsP (w : List Char) (idx : ℕ) (ns : List ℤ) (st : WL) :
    runU (v5bAddGramsP w idx ns st) =
      (ns.foldl (fun st n => if (getNGrams w n).length = 0 then st
        else (v5bLocations (getNGrams w n)).foldl (WL.addItem idx) st) st, .ok ()) := by
  induction ns generalizing st with
  | nil => rfl
  | cons n ns ih =>
    rw [v5bAddGramsP, runU_bind]
    exact ih _

theorem v5bAddWordP_insens (cf : List Char → List Char) (st : WL) (word : PyVal) :
    Insens (v5bAddWordP cf st word) := by
  unfold v5bAddWordP
  split
  · split
    · exact .ret _
    · simp only
      split
      · exact .ret _
      · split
        · exact .ret _
        · split
          · exact .ret _
          · refine Insens.bind (v5bResolveP_insens _ _) fun r => ?_
            obtain ⟨st', r⟩ := r
            cases r with
            | none => exact .ret _
            | some idx =>
              refine Insens.bind (addFilterP_insens _ _ _) fun r => ?_
              obtain ⟨st'', r⟩ := r
              cases r with
              | error e => exact .ret _
              | ok _ => exact v5bAddGramsP_insens _ _ _ _
  · exact .ret _

theorem runU_v5bAddWordP (cf : List Char → List Char) (st : WL) (word : PyVal) :
    runU (v5bAddWordP cf st word) = st.v5bAddWord cf word := by
  unfold v5bAddWordP WL.v5bAddWord
  cases word with
  | str w =>
    simp only
    split
    · rfl
    · split
      · rfl
      · split
        · rfl
        · split
          · rfl
          · rw [runU_bind, runU_v5bResolveP]
            rcases st.v5bResolve (st.fold cf w) with ⟨st', r⟩
            cases r with
            | none => rfl
            | some idx =>
              simp only
              rw [runU_bind, runU_addFilterP]
              simp only
              rw [runU_v5bAddGramsP]
              rfl
  | _ => rfl

theorem v5bQueryP_insens (q : List Char) (ns : List ℤ) : InsensP (v5bQueryP q ns) := by
  unfold v5bQueryP
  refine InsensP.bind (InsensP.mapM (fun n => InsensP.tryNums _ _) _) fun nums =>
    InsensP.mapM (fun p => InsensP.ite (InsensP.pure _) ?_) _
  exact InsensP.bind (InsensP.tryGrams _ _) fun _ => InsensP.pure _

theorem mapM_ok {f : α → β} (l : List α) :
    l.mapM (fun a => (Except.ok (f a) : Except PyErr β)) = .ok (l.map f) := by
  induction l with
  | nil => rfl
  | cons a l ih => rw [List.mapM_cons, ih]; rfl

theorem U_v5bQueryP (q : List Char) (ns : List ℤ) :
    U (v5bQueryP q ns) = .ok (ns.map (fun n => (numGrams q.length n,
      if numGrams q.length n = 0 then [] else getNGrams q n))) := by
  unfold v5bQueryP
  rw [U_bind, U_mapM]
  simp only [U_tryNums, mapM_ok, okBind, U_mapM, U_ite, U_pure, U_bind, U_tryGrams]
  have h : (fun p : ℤ × ℤ => if p.2 = 0 then (Except.ok (p.2, []) : Except PyErr _)
      else .ok (p.2, getNGrams q p.1)) =
      fun p => .ok (p.2, if p.2 = 0 then [] else getNGrams q p.1) := by
    funext p; split <;> rfl
  rw [h, mapM_ok]
  congr 1
  induction ns with
  | nil => rfl
  | cons n ns ih => simp [ih]

theorem v5bMinScoresOf_eq (st : WL) (q : List Char) (nm : Bool) (cand : List ℕ) :
    v5bMinScoresOf st (st.nList.map (fun n => (numGrams q.length n,
      if numGrams q.length n = 0 then [] else getNGrams q n))) nm cand =
      st.v5bMinScores q nm cand := by
  unfold v5bMinScoresOf WL.v5bMinScores
  rw [List.zipIdx_map, List.foldlM_map]
  congr 1
  funext ms nk
  simp only [Prod.map]
  split
  · rfl
  · rfl

theorem v5bMatchScoresOf_eq (st : WL) (q : List Char) (nm : Bool) (fin : List ℕ) :
    v5bMatchScoresOf st (st.nList.map (fun n => (numGrams q.length n,
      if numGrams q.length n = 0 then [] else getNGrams q n))) nm fin =
      st.v5bMatchScores q nm fin := by
  unfold v5bMatchScoresOf WL.v5bMatchScores
  rw [List.zipIdx_map, List.foldlM_map]
  congr 1
  funext ms nk
  simp only [Prod.map]
  split
  · rfl
  · rfl

theorem v5bFilterGramsP_insens (st : WL) (q : List Char) : InsensP (v5bFilterGramsP st q) := by
  unfold v5bFilterGramsP
  exact InsensP.ite (InsensP.bind (InsensP.tryGrams _ _) fun _ => InsensP.pure _) (InsensP.pure _)

theorem v5bLookupSimilarityP_insens {S : Type} [LinearOrder S] (agg : List ℚ → S) (st : WL)
    (q : List Char) (k : ℕ) (nm : Bool) : InsensP (v5bLookupSimilarityP agg st q k nm) := by
  unfold v5bLookupSimilarityP
  refine InsensP.ite (InsensP.pure _) (InsensP.bind (v5bFilterGramsP_insens _ _) fun fg => ?_)
  exact InsensP.ite (InsensP.pure _) (InsensP.bind (v5bQueryP_insens _ _) fun _ =>
    InsensP.liftE _)

theorem U_v5bLookupSimilarityP {S : Type} [LinearOrder S] (agg : List ℚ → S) (st : WL)
    (q : List Char) (k : ℕ) (nm : Bool) :
    U (v5bLookupSimilarityP agg st q k nm) = st.v5bLookupSimilarity agg q k nm := by
  unfold v5bLookupSimilarityP WL.v5bLookupSimilarity v5bFilterGramsP WL.v5bCandidates
  by_cases hq : q.length = 0
  · simp only [if_pos hq]; rfl
  · simp only [if_neg hq, U_bind, U_ite, U_tryGrams, U_pure, okBind]
    by_cases hf : st.filterN ≠ 0
    · simp only [if_pos hf, okBind, Option.some.injEq]
      by_cases he : (getNGrams q st.filterN).dedup = []
      · simp only [he, if_true]; rfl
      · have he' : (getNGrams q st.filterN).dedup.isEmpty = false := by simp [he]
        simp only [if_neg he, he', U_v5bQueryP, okBind, U_liftE, v5bMinScoresOf_eq,
          v5bMatchScoresOf_eq, v5bCandidatesOf]
        rfl
    · simp only [if_neg hf, okBind, U_v5bQueryP, U_liftE, v5bMinScoresOf_eq,
          v5bMatchScoresOf_eq, v5bCandidatesOf]
      rfl

theorem v5bLookupP_insens {S : Type} [LinearOrder S] (agg : List ℚ → S)
    (cf : List Char → List Char) (st : WL) (word topK : PyVal) (nm : Bool) :
    InsensP (v5bLookupP agg cf st word topK nm) := by
  unfold v5bLookupP
  split
  · refine InsensP.ite (InsensP.liftE _) ?_
    split
    · refine InsensP.ite (InsensP.liftE _) (InsensP.ite (InsensP.pure _)
        (InsensP.ite (InsensP.pure _) ?_))
      exact InsensP.bind (v5bLookupSimilarityP_insens _ _ _ _ _) fun _ => InsensP.liftE _
    · exact InsensP.liftE _
  · exact InsensP.liftE _

theorem U_v5bLookupP {S : Type} [LinearOrder S] (agg : List ℚ → S) (cf : List Char → List Char)
    (st : WL) (word topK : PyVal) (nm : Bool) :
    U (v5bLookupP agg cf st word topK nm) = st.v5bLookup agg cf word topK nm := by
  unfold v5bLookupP WL.v5bLookup
  cases word with
  | str w =>
    simp only [U_ite]
    split
    · rfl
    · cases topK with
      | int k =>
        simp only [U_ite, U_bind, U_v5bLookupSimilarityP, U_liftE, U_pure]
      | _ => rfl
  | _ => rfl

/-! ## V3 with ints -/

theorem numSet_int (ns : List ℤ) : numSet (ns.map Num.int) = ns.dedup.map Num.int := by
  unfold numSet
  have h1 : (ns.map Num.int).pwFilter (fun a b => a.val ≠ b.val) = ns.dedup.map Num.int := by
    rw [List.pwFilter_map]
    congr 1
    unfold List.dedup
    congr 1
    funext a b
    simp [Num.val]
  rw [h1, List.map_map]
  apply List.map_congr_left
  intro z _
  simp only [Function.comp]
  cases h : (ns.map Num.int).find? (fun y => decide (y.val = (Num.int z).val)) with
  | none => rfl
  | some y =>
    have hy := List.find?_some h
    have hm := List.mem_of_find?_eq_some h
    obtain ⟨x, _, rfl⟩ := List.mem_map.1 hm
    simp only [Num.val, decide_eq_true_eq, Int.cast_inj] at hy
    rw [hy]; rfl

theorem v3GramsP_whole (w : List Char) (z : ℤ) : WholeP (v3GramsP w (.int z)) := by
  unfold v3GramsP
  exact WholeP.ite (WholeP.nums _ _ _) (WholeP.pure _)

theorem U_v3GramsP (w : List Char) (z : ℤ) : U (v3GramsP w (.int z)) = .ok (v3AddGrams w z) := by
  unfold v3GramsP v3AddGrams
  rw [U_ite]
  by_cases h : z > 1
  · rw [if_pos h, if_pos (by simp only [Num.val]; exact_mod_cast h)]; rfl
  · rw [if_neg h, if_neg (by simp only [Num.val]; exact_mod_cast h)]; rfl

theorem v3AddGramsP_whole (w : List Char) (idx : ℕ) (ns : List ℤ) (st : V3) :
    Whole (v3AddGramsP w idx (ns.map Num.int) st) := by
  induction ns generalizing st with
  | nil => exact .ret _
  | cons n ns ih =>
    refine Whole.bind (v3GramsP_whole w n) fun r => ?_
    cases r with
    | error e => exact .ret _
    | ok gs => exact ih _

theorem runU_v3AddGramsP (w : List Char) (idx : ℕ) (ns : List ℤ) (st : V3) :
    runU (v3AddGramsP w idx (ns.map Num.int) st) =
      ({ st with
          ngramIndices := ns.foldl (fun d n =>
            (addLocations (v3AddGrams w n)).foldl (fun d it => Dict.appendTo d it.1 (idx, it.2)) d)
            st.ngramIndices }, .ok ()) := by
  induction ns generalizing st with
  | nil => rfl
  | cons n ns ih =>
    rw [List.map_cons, v3AddGramsP, runU_bind]
    have := U_v3GramsP w n
    unfold U at this
    rw [this]
    simp only
    rw [ih]
    rfl

theorem v3AddWordP_whole (cf : List Char → List Char) (ns : List ℤ) (st : V3) (word : PyVal) :
    Whole (v3AddWordP cf (ns.map Num.int) st word) := by
  unfold v3AddWordP
  split
  · split
    · exact .ret _
    · simp only
      split
      · exact .ret _
      · split
        · exact .ret _
        · split
          · exact .ret _
          · rw [numSet_int]; exact v3AddGramsP_whole _ _ _ _
  · exact .ret _

theorem resolve_v3_nList (cf : List Char → List Char) (st : V3) (w : List Char) (b : Bool) :
    (st.resolve cf w b).1.nList = st.nList := by
  unfold V3.resolve
  split
  · rfl
  · simp only
    split
    · rfl
    · split
      · rfl
      · split <;> rfl

theorem runU_v3AddWordP (cf : List Char → List Char) (st : V3) (word : PyVal) :
    runU (v3AddWordP cf (st.nList.map Num.int) st word) = st.addWord cf word := by
  unfold v3AddWordP V3.addWord
  cases word with
  | str w =>
    simp only
    split
    · rfl
    · split
      · rfl
      · split
        · rfl
        · have hn := resolve_v3_nList cf st (st.fold cf w) true
          rcases hr : st.resolve cf (st.fold cf w) true with ⟨st', r⟩
          rw [hr] at hn
          cases r with
          | error e => rfl
          | ok idx =>
            simp only at hn ⊢
            rw [numSet_int, runU_v3AddGramsP, ← hn]
            rfl
  | _ => rfl

theorem addWord_v3_nList (cf : List Char → List Char) (st : V3) (word : PyVal) :
    (st.addWord cf word).1.nList = st.nList := by
  unfold V3.addWord
  cases word with
  | str w =>
    simp only
    split
    · rfl
    · split
      · rfl
      · split
        · rfl
        · have hn := resolve_v3_nList cf st (st.fold cf w) true
          rcases hr : st.resolve cf (st.fold cf w) true with ⟨st', r⟩
          rw [hr] at hn
          cases r <;> exact hn
  | _ => rfl

theorem zipIdx_int {ns : List ℤ} {nk : Num × ℕ} (h : nk ∈ (ns.map Num.int).zipIdx) :
    ∃ z : ℤ, nk.1 = .int z := by
  have : nk.1 ∈ ns.map Num.int := by
    have := List.mem_map_of_mem (f := Prod.fst) h
    rwa [List.zipIdx_map_fst] at this
  obtain ⟨z, _, hz⟩ := List.mem_map.1 this
  exact ⟨z, hz.symm⟩

theorem v3MatchesP_whole (ns : List ℤ) (st : V3) (q : List Char) :
    WholeP (v3MatchesP (ns.map Num.int) st q) := by
  unfold v3MatchesP
  refine WholeP.foldlM _ (fun ms nk hnk => ?_) _
  obtain ⟨z, hz⟩ := zipIdx_int hnk
  rw [hz]
  exact WholeP.bind (WholeP.nums _ _ _) fun _ => WholeP.bind (WholeP.liftE _) fun _ =>
    WholeP.pure _

theorem zipIdx_map_int (ns : List ℤ) :
    (ns.map Num.int).zipIdx = ns.zipIdx.map (fun nk => (Num.int nk.1, nk.2)) := by
  rw [List.zipIdx_map]; rfl

theorem U_v3MatchesP (st : V3) (q : List Char) :
    U (v3MatchesP (st.nList.map Num.int) st q) = st.matches q := by
  unfold v3MatchesP V3.matches
  rw [zipIdx_map_int, U_foldlM, List.foldlM_map]
  simp only [U_bind, U_liftE, U_pure, List.length_map]
  rfl

theorem v3NormalizeRowP_whole (ns : List ℤ) (q : List Char) (p : ℕ × List ℚ) :
    WholeP (v3NormalizeRowP (ns.map Num.int) q p) := by
  unfold v3NormalizeRowP
  refine WholeP.bind (WholeP.mapM _ (fun nk hnk => ?_)) fun _ => WholeP.pure _
  obtain ⟨z, hz⟩ := zipIdx_int hnk
  rw [hz]
  exact WholeP.bind (WholeP.liftE _) fun _ => WholeP.bind (WholeP.nums _ _ _) fun _ =>
    WholeP.ite (WholeP.liftE _) (WholeP.pure _)

theorem U_v3NormalizeRowP (st : V3) (q : List Char) (p : ℕ × List ℚ) :
    U (v3NormalizeRowP (st.nList.map Num.int) q p) = st.normalizeRow q p := by
  unfold v3NormalizeRowP V3.normalizeRow
  rw [zipIdx_map_int, U_bind, U_mapM, List.mapM_map]
  have h : ∀ z : ℤ, U (ExceptT.mk (.nums q.length (.int z) (fun v => .ret (.ok v.val))) : P ℚ) =
      .ok ((numGrams q.length z : ℤ) : ℚ) := fun z => rfl
  have h2 : ((fun a : Num × ℕ => U (do
      let x ← liftE (pyGet p.2 a.2)
      let v ← (ExceptT.mk (.nums q.length a.1 (fun v => .ret (.ok v.val))) : P ℚ)
      if v = 0 then liftE (.error PyErr.zeroDivisionError) else pure (x / v))) ∘
        fun nk : ℤ × ℕ => (Num.int nk.1, nk.2)) = fun nk : ℤ × ℕ => (do
      let x ← pyGet p.2 nk.2
      let den : ℤ := numGrams q.length nk.1
      if den = 0 then throw PyErr.zeroDivisionError else return x / (den : ℚ)) := by
    funext nk
    simp only [Function.comp, U_bind, U_liftE, h, okBind, U_ite, U_pure, Int.cast_eq_zero]
    rfl
  rw [h2]
  rfl

theorem v3LookupP_whole {S : Type} [LinearOrder S] (agg : List ℚ → S) (cf : List Char → List Char)
    (ns : List ℤ) (st : V3) (word : PyVal) (topK : Option ℤ) :
    WholeP (v3LookupP agg cf (ns.map Num.int) st word topK) := by
  unfold v3LookupP
  split
  · refine WholeP.ite (WholeP.liftE _) (WholeP.ite (WholeP.liftE _) ?_)
    exact WholeP.bind (v3MatchesP_whole _ _ _) fun _ =>
      WholeP.bind (WholeP.mapM _ fun _ _ => v3NormalizeRowP_whole _ _ _) fun _ => WholeP.liftE _
  · exact WholeP.liftE _

theorem U_v3LookupP {S : Type} [LinearOrder S] (agg : List ℚ → S) (cf : List Char → List Char)
    (st : V3) (word : PyVal) (topK : Option ℤ) :
    U (v3LookupP agg cf (st.nList.map Num.int) st word topK) = st.lookup agg cf word topK := by
  unfold v3LookupP V3.lookup V3.lookupScores
  cases word with
  | str w =>
    simp only [U_ite, U_bind, U_liftE, U_v3MatchesP, U_mapM, U_v3NormalizeRowP, bind_assoc]
    rfl
  | _ => rfl

end Verif.Memo
