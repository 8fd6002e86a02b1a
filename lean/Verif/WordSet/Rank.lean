import Verif.WordSet.State

/-!
# `find_similar` computes the ranking
-/

namespace Verif

open GramSpec WordSetSpec

variable {cf : List Char → List Char} {un : Normalizer} {st : WS}

/-! ### The ranking -/

theorem pairwise_idxOf {α : Type} [DecidableEq α] {s : List α} (h : s.Nodup) :
    s.Pairwise (fun a b => s.idxOf a < s.idxOf b) := by
  rw [List.pairwise_iff_getElem]
  intro i j hi hj hij
  rw [h.idxOf_getElem i hi, h.idxOf_getElem j hj]
  exact hij

theorem preferred_asymm {ns : List ℕ} {q : List Char} {s : List Member} {a b : Member}
    (h : Preferred ns q s a b) : ¬ Preferred ns q s b a := by
  intro h'
  rcases h with h | ⟨h1, h2⟩ <;> rcases h' with h' | ⟨h1', h2'⟩
  · exact lt_asymm h h'
  · rw [h1'] at h; exact lt_irrefl _ h
  · rw [h1] at h'; exact lt_irrefl _ h'
  · exact lt_asymm h2 h2'

theorem ranked_ranking {ns : List ℕ} {q : List Char} {s : List Member} (hs : s.Nodup) (k : ℕ) :
    Ranking ns q s k (ranked ns q s k) := by
  have hperm : (sortDesc (fun m : Member => score ns q m.key)
      (s.filter (fun m => Candidate ns q m.key))).Perm _ := sortDesc_perm _ _
  have hpw : (sortDesc (fun m : Member => score ns q m.key)
      (s.filter (fun m => Candidate ns q m.key))).Pairwise (Preferred ns q s) :=
    sortDesc_pairwise_stable ((pairwise_idxOf hs).sublist List.filter_sublist)
  have hdef : ranked ns q s k = (sortDesc (fun m : Member => score ns q m.key)
      (s.filter (fun m => Candidate ns q m.key))).take k := rfl
  rw [hdef]
  constructor
  · intro m hm
    have := hperm.mem_iff.1 (List.mem_of_mem_take hm)
    rw [List.mem_filter, decide_eq_true_eq] at this
    exact this
  · exact hpw.sublist (List.take_sublist _ _)
  · rw [List.length_take, hperm.length_eq]
  · intro m hm hc hno r hr
    have hm' : m ∈ sortDesc (fun m : Member => score ns q m.key)
        (s.filter (fun m => Candidate ns q m.key)) :=
      hperm.mem_iff.2 (List.mem_filter.2 ⟨hm, by simpa using hc⟩)
    rw [← List.take_append_drop k (sortDesc _ _), List.mem_append] at hm'
    have hm'' := hm'.resolve_left hno
    rw [← List.take_append_drop k (sortDesc _ _), List.pairwise_append] at hpw
    exact hpw.2.2 r hr m hm''

/-- A ranking is unique. -/
theorem ranking_unique {ns : List ℕ} {q : List Char} {s : List Member} {k : ℕ}
    {r r' : List Member} (h : Ranking ns q s k r) (h' : Ranking ns q s k r') : r = r' := by
  have nd : ∀ {t}, Ranking ns q s k t → t.Nodup := by
    intro t ht
    apply ht.ordered.imp
    rintro a b hab rfl
    exact preferred_asymm hab hab
  have hlen : r.length = r'.length := by rw [h.length, h'.length]
  have sub : ∀ {t t'}, Ranking ns q s k t → Ranking ns q s k t' → t ⊆ t' := by
    intro t t' ht ht' m hm
    by_contra hno
    have hl : t.length = t'.length := by rw [ht.length, ht'.length]
    -- some element of t' is missing from t
    have : ∃ m' ∈ t', m' ∉ t := by
      by_contra hc
      push Not at hc
      have h1 := ((List.subperm_of_subset (nd ht') hc).perm_of_length_le (by omega))
      exact hno (h1.mem_iff.2 hm)
    obtain ⟨m', hm', hno'⟩ := this
    have h1 := ht.best m' (ht'.members m' hm').1 (ht'.members m' hm').2 hno' m hm
    have h2 := ht'.best m (ht.members m hm).1 (ht.members m hm).2 hno m' hm'
    exact preferred_asymm h1 h2
  have hp : r.Perm r' := (List.perm_ext_iff_of_nodup (nd h) (nd h')).2
    (fun m => ⟨fun hm => sub h h' hm, fun hm => sub h' h hm⟩)
  exact hp.eq_of_pairwise (fun a b _ _ hab hba => absurd hba (preferred_asymm hab)) h.ordered h'.ordered

/-! ### Scoring loop -/

theorem WSRep.nodupN {E : List Entry} (h : WSRep cf un st E) : (st.nList.map Int.toNat).Nodup := by
  unfold List.Nodup
  rw [List.pairwise_map, List.pairwise_iff_getElem]
  intro i j hi hj hij
  have h1 := List.pairwise_iff_getElem.1 h.sizesLt i j hi hj hij
  have h2 := h.sizesPos _ (List.getElem_mem hi)
  omega

theorem WSRep.posN {E : List Entry} (h : WSRep cf un st E) :
    ∀ n ∈ st.nList.map Int.toNat, 1 ≤ n := by
  intro n hn
  obtain ⟨m, hm, rfl⟩ := List.mem_map.1 hn
  have := h.sizesPos m hm
  omega

theorem numGrams_computeInfo {E : List Entry} (h : WSRep cf un st E) (w : List Char) :
    (st.computeInfo w).numGrams.sum = (allLocated (st.nList.map Int.toNat) w).length := by
  rw [length_allLocated]
  unfold WS.computeInfo
  simp only [List.map_map]
  congr 1
  apply List.map_congr_left
  intro n hn
  exact wsNumGrams_eq (h.sizesPos n hn) w

theorem scoreStep_eq {E : List Entry} (h : WSRep cf un st E) (q : List Char) {e : Entry}
    (he : e ∈ E) (acc : List (ℚ × ℕ)) :
    st.scoreStep (st.computeInfo q) acc e.id =
      .ok (acc ++ if 0 < totalCount (st.nList.map Int.toNat) q e.m.key
        then [(-(score (st.nList.map Int.toNat) q e.m.key), e.id)] else []) := by
  unfold WS.scoreStep
  have h1 : pyKey st.info e.id = .ok (st.computeInfo e.m.key) := by
    unfold pyKey; rw [h.info, get?_map_id h.ids he]
  have h2 : ∀ w, (st.computeInfo w).ngramsPos =
      Dict.group (allLocated (st.nList.map Int.toNat) w) := by
    intro w; exact ngramsPos_eq h.sizesPos w
  simp only [h1, h2, wsSimilarity_group, numGrams_computeInfo h, ← totalCount_eq, bind, Except.bind,
    pure, Except.pure]
  split
  · have hs := score_eq h.nodupN q e.m.key
    rw [← hs, min_eq_right (score_le_one h.nodupN _ _), max_eq_right (score_nonneg h.nodupN _ _)]
  · simp

theorem foldlM_scoreStep {E : List Entry} (h : WSRep cf un st E) (q : List Char) (T : List Entry)
    (hT : ∀ e ∈ T, e ∈ E) (acc : List (ℚ × ℕ)) :
    (T.map (fun e => e.id)).foldlM (st.scoreStep (st.computeInfo q)) acc =
      .ok (acc ++ (T.filter (fun e => 0 < totalCount (st.nList.map Int.toNat) q e.m.key)).map
        (fun e => (-(score (st.nList.map Int.toNat) q e.m.key), e.id))) := by
  induction T generalizing acc with
  | nil => simp [pure, Except.pure]
  | cons e T ih =>
    rw [List.map_cons, List.foldlM_cons, scoreStep_eq h q (hT e List.mem_cons_self)]
    simp only [bind, Except.bind]
    rw [ih (fun e he => hT e (List.mem_cons_of_mem _ he)), List.append_assoc]
    congr 2
    by_cases hc : 0 < totalCount (st.nList.map Int.toNat) q e.m.key
    · rw [if_pos hc, List.filter_cons_of_pos (by simpa using hc)]; rfl
    · rw [if_neg hc, List.filter_cons_of_neg (by simpa using hc)]; rfl

theorem exists_entries {E : List Entry} {T : List ℕ} (h : ∀ i ∈ T, ∃ e ∈ E, e.id = i) :
    ∃ T' : List Entry, T'.map (fun e => e.id) = T ∧ ∀ e ∈ T', e ∈ E := by
  induction T with
  | nil => exact ⟨[], rfl, by simp⟩
  | cons i T ih =>
    obtain ⟨e, he, rfl⟩ := h i List.mem_cons_self
    obtain ⟨T', h1, h2⟩ := ih (fun i hi => h i (List.mem_cons_of_mem _ hi))
    refine ⟨e :: T', by rw [List.map_cons, h1], ?_⟩
    intro e' he'
    rcases List.mem_cons.1 he' with rfl | he'
    · exact he
    · exact h2 e' he'

theorem mapM_pyKey {E : List Entry} (h : WSRep cf un st E) (sc : Entry → ℚ) (R : List Entry)
    (hR : ∀ e ∈ R, e ∈ E) :
    (R.map (fun e => (-(sc e), e.id))).mapM (fun p : ℚ × ℕ => do
      return (← pyKey st.originals p.2, -p.1)) =
      (.ok (R.map (fun e => (e.m.orig, sc e))) : Except PyErr _) := by
  induction R with
  | nil => rfl
  | cons e R ih =>
    have h1 : pyKey st.originals e.id = .ok e.m.orig := by
      unfold pyKey; rw [h.originals, get?_map_id h.ids (hR e List.mem_cons_self)]
    rw [List.map_cons, List.mapM_cons, ih (fun e he => hR e (List.mem_cons_of_mem _ he))]
    simp [h1, bind, Except.bind, pure, Except.pure]

instance : Std.Total tupleLe := ⟨by
  intro a b
  unfold tupleLe
  rcases lt_trichotomy a.1 b.1 with h | h | h
  · exact Or.inl (Or.inl h)
  · rcases le_total a.2 b.2 with h' | h'
    · exact Or.inl (Or.inr ⟨h, h'⟩)
    · exact Or.inr (Or.inr ⟨h.symm, h'⟩)
  · exact Or.inr (Or.inl h)⟩

instance : IsTrans (ℚ × ℕ) tupleLe := ⟨by
  rintro a b c (h | ⟨h1, h2⟩) (h' | ⟨h1', h2'⟩)
  · exact Or.inl (lt_trans h h')
  · exact Or.inl (h1' ▸ h)
  · exact Or.inl (h1 ▸ h')
  · exact Or.inr ⟨h1.trans h1', h2.trans h2'⟩⟩

theorem tupleLe_antisymm {a b : ℚ × ℕ} (h : tupleLe a b) (h' : tupleLe b a) : a = b := by
  rcases h with h | ⟨h1, h2⟩ <;> rcases h' with h' | ⟨h1', h2'⟩
  · exact absurd h' (lt_asymm h)
  · rw [h1'] at h; exact absurd h (lt_irrefl _)
  · rw [h1] at h'; exact absurd h' (lt_irrefl _)
  · exact Prod.ext h1 (le_antisymm h2 h2')

theorem insertionSort_map {α β : Type} {r : α → α → Prop} {t : β → β → Prop} [DecidableRel r]
    [DecidableRel t] (f : α → β) (hf : ∀ a b, r a b ↔ t (f a) (f b)) (l : List α) :
    (l.insertionSort r).map f = (l.map f).insertionSort t := by
  induction l with
  | nil => rfl
  | cons a l ih =>
    rw [List.insertionSort_cons, List.map_cons, List.insertionSort_cons, ← ih]
    generalize l.insertionSort r = s
    induction s with
    | nil => rfl
    | cons b s ihs =>
      rw [List.orderedInsert_cons, List.map_cons, List.orderedInsert_cons]
      by_cases h : r a b
      · rw [if_pos h, if_pos ((hf a b).1 h)]; rfl
      · rw [if_neg h, if_neg (fun hc => h ((hf a b).2 hc)), List.map_cons, ihs]

/-- `WS.rank` on a set of ids that covers the candidates. -/
theorem rank_eq {E : List Entry} (h : WSRep cf un st E) (q : List Char) {T : List ℕ}
    (hT : T.Nodup) (hsub : ∀ i ∈ T, ∃ e ∈ E, e.id = i)
    (hcand : ∀ e ∈ E, (e.id ∈ T ∧ 0 < totalCount (st.nList.map Int.toNat) q e.m.key) ↔
      Candidate (st.nList.map Int.toNat) q e.m.key) (k : ℕ) :
    st.rank q T k = .ok ((ranked (st.nList.map Int.toNat) q (E.map (fun e => e.m)) k).map
      (fun m => (m.orig, score (st.nList.map Int.toNat) q m.key))) := by
  obtain ⟨T', rfl, hT'⟩ := exists_entries hsub
  generalize hns : st.nList.map Int.toNat = ns at *
  let sc : Entry → ℚ := fun e => score ns q e.m.key
  let f : Entry → ℚ × ℕ := fun e => (-(sc e), e.id)
  let C : List Entry := E.filter (fun e => Candidate ns q e.m.key)
  have hC : (T'.filter (fun e => 0 < totalCount ns q e.m.key)).Perm C := by
    rw [List.perm_ext_iff_of_nodup]
    · intro e
      rw [List.mem_filter, List.mem_filter, decide_eq_true_eq, decide_eq_true_eq]
      constructor
      · rintro ⟨h1, h2⟩
        have he := hT' e h1
        exact ⟨he, (hcand e he).1 ⟨List.mem_map.2 ⟨e, h1, rfl⟩, h2⟩⟩
      · rintro ⟨he, hc⟩
        obtain ⟨h1, h2⟩ := (hcand e he).2 hc
        obtain ⟨e', he', hid⟩ := List.mem_map.1 h1
        rw [id_inj h.ids (hT' e' he') he hid] at he'
        exact ⟨he', h2⟩
    · exact (List.Nodup.of_map _ hT).filter _
    · exact (List.Nodup.of_map _ (nodup_ids h.ids)).filter _
  let R : List Entry := sortDesc sc C
  have hR : R.Perm C := sortDesc_perm _ _
  have hRE : ∀ e ∈ R, e ∈ E := fun e he => (List.mem_filter.1 (hR.mem_iff.1 he)).1
  have hsorted : (R.map f).Pairwise tupleLe := by
    rw [List.pairwise_map]
    have : R.Pairwise (fun a b => sc b < sc a ∨ (sc b = sc a ∧ a.id < b.id)) :=
      sortDesc_pairwise_stable (h.ids.sublist List.filter_sublist)
    apply this.imp
    rintro a b (hl | ⟨h1, h2⟩)
    · exact Or.inl (neg_lt_neg hl)
    · exact Or.inr ⟨by simp only [f, h1], le_of_lt h2⟩
  have hsort : ((T'.filter (fun e => 0 < totalCount ns q e.m.key)).map f).insertionSort tupleLe =
      R.map f := by
    apply List.Perm.eq_of_pairwise (fun a b _ _ h1 h2 => tupleLe_antisymm h1 h2)
      (List.pairwise_insertionSort _ _) hsorted
    exact (List.perm_insertionSort _ _).trans ((hC.trans hR.symm).map f)
  unfold WS.rank
  rw [foldlM_scoreStep h q T' hT' []]
  simp only [bind, Except.bind, List.nil_append, hns]
  rw [show (T'.filter (fun e => 0 < totalCount ns q e.m.key)).map
      (fun e => (-(score ns q e.m.key), e.id)) =
      (T'.filter (fun e => 0 < totalCount ns q e.m.key)).map f from rfl, hsort, ← List.map_take]
  have hm := mapM_pyKey h sc (R.take k) (fun e he => hRE e (List.mem_of_mem_take he))
  simp only [bind, Except.bind] at hm
  rw [hm]
  congr 1
  have hmap : R.map (fun e => e.m) = ((E.map (fun e => e.m)).filter
      (fun m => Candidate ns q m.key)).insertionSort
      (fun a b => score ns q b.key ≤ score ns q a.key) := by
    rw [show R = C.insertionSort (fun a b => sc b ≤ sc a) from rfl,
      insertionSort_map (t := fun a b => score ns q b.key ≤ score ns q a.key) (fun e : Entry => e.m)
        (fun a b => Iff.rfl), List.filter_map]
    rfl
  unfold ranked
  rw [← hmap, ← List.map_take, List.map_map]
  rfl

/-! ### Candidates -/

theorem filterSize_mem {ns : List ℕ} {f : ℕ} (h : filterSize ns = some f) : f ∈ ns := by
  unfold filterSize at h
  split at h
  · rename_i h3; injection h with h; subst h; exact h3
  · cases ns with
    | nil => cases h
    | cons a l =>
      simp only at h
      split at h
      · injection h with h; subst h; exact List.mem_cons_self
      · cases h

theorem totalCount_pos_of_gram {ns : List ℕ} {n : ℕ} (hn : n ∈ ns) {q w g : List Char}
    (hg : g ∈ grams n q) : 0 < totalCount ns q w := by
  have h1 : 0 < count n q := by
    rw [← length_grams]; exact List.length_pos_of_mem hg
  unfold totalCount
  have h2 : count n q + count n w ∈ ns.map (fun n => count n q + count n w) :=
    List.mem_map.2 ⟨n, hn, rfl⟩
  have := List.le_sum_of_mem h2
  omega

theorem mem_candidateIds {gs : List (List Char)} {i : ℕ} :
    i ∈ st.candidateIds gs ↔ ∃ g ∈ gs, i ∈ idsAt st.filterIndex g := by
  unfold WS.candidateIds
  have key : ∀ (gs : List (List Char)) (bm : List ℕ),
      i ∈ gs.foldl (fun bm g => (bm ++ (Dict.get? st.filterIndex g).getD []).dedup) bm ↔
        i ∈ bm ∨ ∃ g ∈ gs, i ∈ idsAt st.filterIndex g := by
    intro gs
    induction gs with
    | nil => simp
    | cons g gs ih =>
      intro bm
      rw [List.foldl_cons, ih, List.mem_dedup, List.mem_append]
      simp only [List.mem_cons, exists_eq_or_imp]
      rw [or_assoc]; rfl
  rw [key]; simp

theorem nodup_candidateIds (gs : List (List Char)) : (st.candidateIds gs).Nodup := by
  unfold WS.candidateIds
  induction gs using List.reverseRecOn with
  | nil => simp
  | append_singleton gs g ih =>
    rw [List.foldl_append, List.foldl_cons, List.foldl_nil]
    exact List.nodup_dedup _

theorem ranked_nil {ns : List ℕ} {q : List Char} {s : List Member} {k : ℕ}
    (h : ∀ m ∈ s, ¬ Candidate ns q m.key) : ranked ns q s k = [] := by
  unfold ranked
  have : s.filter (fun m => Candidate ns q m.key) = [] := by
    rw [List.filter_eq_nil_iff]
    intro m hm
    simpa using h m hm
  rw [this]; simp

/-- `find_similar` on valid arguments. -/
theorem findSimilar_eq {E : List Entry} (h : WSRep cf un st E) {k : ℤ} (hk : 0 < k) {ms : MinSim}
    (hms : ms.accepted = true) {q : List Char} :
    st.findSimilar cf un (.str q) (.int k) ms =
      if q = [] ∨ E = [] then .ok []
      else
        match keyOf st.caseSensitive cf un q with
        | none => .error .valueError
        | some nq =>
          if nq = [] then .ok []
          else .ok ((ranked (st.nList.map Int.toNat) nq (E.map (fun e => e.m)) k.toNat).map
            (fun m => (m.orig, score (st.nList.map Int.toNat) nq m.key))) := by
  unfold WS.findSimilar
  have hE : st.vocab = [] ↔ E = [] := by rw [h.vocab]; simp
  simp only [if_neg (not_le.2 hk), hE]
  rw [hms]
  simp only
  split
  · rfl
  rename_i hne
  rw [not_or] at hne
  rw [normalizeWord_eq]
  cases hkey : keyOf st.caseSensitive cf un q with
  | none => rfl
  | some nq =>
    simp only
    split
    · rfl
    cases hf : st.filterN with
    | none =>
      simp only
      apply rank_eq h
      · rw [h.info]; unfold Dict.keys; rw [List.map_map]; exact nodup_ids h.ids
      · intro i hi
        rw [h.info] at hi
        unfold Dict.keys at hi
        rw [List.map_map] at hi
        obtain ⟨e, he, rfl⟩ := List.mem_map.1 hi
        exact ⟨e, he, rfl⟩
      · intro e he
        have hin : e.id ∈ Dict.keys st.info := by
          rw [h.info]; unfold Dict.keys; rw [List.map_map]; exact List.mem_map.2 ⟨e, he, rfl⟩
        have hfs : filterSize (st.nList.map Int.toNat) = none := by
          have := h.filter
          rw [hf] at this
          cases hc : filterSize (st.nList.map Int.toNat) with
          | none => rfl
          | some f => rw [hc] at this; cases this
        unfold Candidate
        rw [hfs]
        simp [hin]
    | some f =>
      have hfp := h.filterPos hf
      have hfs : filterSize (st.nList.map Int.toNat) = some f.toNat := by
        have := h.filter
        rw [hf] at this
        cases hc : filterSize (st.nList.map Int.toNat) with
        | none => rw [hc] at this; cases this
        | some f' =>
          rw [hc] at this
          simp only [Option.map_some, Option.some.injEq] at this
          rw [this]; rfl
      have hcand : ∀ e ∈ E, e.id ∈ st.candidateIds (wsGrams nq f).dedup ↔
          Candidate (st.nList.map Int.toNat) nq e.m.key := by
        intro e he
        rw [mem_candidateIds]
        unfold Candidate
        rw [hfs]
        simp only
        constructor
        · rintro ⟨g, hg, hi⟩
          rw [List.mem_dedup, wsGrams_eq hfp] at hg
          rw [h.idx] at hi
          obtain ⟨e', he', hid, f', hf', hm⟩ := hi
          rw [hf] at hf'
          injection hf' with hf'
          subst hf'
          rw [id_inj h.ids he' he hid] at hm
          exact ⟨g, hg, hm⟩
        · rintro ⟨g, hg, hm⟩
          refine ⟨g, by rw [List.mem_dedup, wsGrams_eq hfp]; exact hg, ?_⟩
          rw [h.idx]
          exact ⟨e, he, rfl, f, hf, hm⟩
      have hsub : ∀ i ∈ st.candidateIds (wsGrams nq f).dedup, ∃ e ∈ E, e.id = i := by
        intro i hi
        obtain ⟨g, _, hi⟩ := mem_candidateIds.1 hi
        obtain ⟨e, he, hid, _⟩ := (h.idx g i).1 hi
        exact ⟨e, he, hid⟩
      have hnil : st.candidateIds (wsGrams nq f).dedup = [] →
          ranked (st.nList.map Int.toNat) nq (E.map (fun e => e.m)) k.toNat = [] := by
        intro hc
        apply ranked_nil
        intro m hm hcm
        obtain ⟨e, he, rfl⟩ := List.mem_map.1 hm
        have := (hcand e he).2 hcm
        rw [hc] at this
        simp at this
      simp only
      split
      · rename_i hgs
        rw [hnil (by rw [hgs]; rfl)]; rfl
      · split
        · rename_i hids
          rw [hnil hids]; rfl
        · apply rank_eq h nq (nodup_candidateIds _) hsub
          intro e he
          rw [hcand e he]
          constructor
          · exact fun hx => hx.1
          · intro hx
            refine ⟨hx, ?_⟩
            unfold Candidate at hx
            rw [hfs] at hx
            obtain ⟨g, hg, _⟩ := hx
            exact totalCount_pos_of_gram (filterSize_mem hfs) hg

end Verif
