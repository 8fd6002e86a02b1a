import Verif.Fp.SetSim

/-!
# `find_similar` in rounded arithmetic computes the ranking by computed scores
-/

namespace Verif
namespace Fp

open GramSpec WordSetSpec

variable {R : FOps} {cf : List Char → List Char} {un : Normalizer} {st : WS}

/-! ## Rankings -/

/-- The ranking as a function: candidates in insertion order, stably sorted by descending score. -/
def rankedBy (sc : List Char → ℚ) (ns : List ℕ) (q : List Char) (s : List Member) (k : ℕ) :
    List Member :=
  ((s.filter (fun m => Candidate ns q m.key)).insertionSort
    (fun a b => sc b.key ≤ sc a.key)).take k

theorem preferredBy_asymm {sc : List Char → ℚ} {s : List Member} {a b : Member}
    (h : PreferredBy sc s a b) : ¬ PreferredBy sc s b a := by
  intro h'
  rcases h with h | ⟨h1, h2⟩ <;> rcases h' with h' | ⟨h1', h2'⟩
  · exact lt_asymm h h'
  · rw [h1'] at h; exact lt_irrefl _ h
  · rw [h1] at h'; exact lt_irrefl _ h'
  · exact lt_asymm h2 h2'

theorem rankedBy_ranking {sc : List Char → ℚ} {ns : List ℕ} {q : List Char} {s : List Member}
    (hs : s.Nodup) (k : ℕ) : RankingBy sc ns q s k (rankedBy sc ns q s k) := by
  have hperm : (sortDesc (fun m : Member => sc m.key)
      (s.filter (fun m => Candidate ns q m.key))).Perm _ := sortDesc_perm _ _
  have hpw : (sortDesc (fun m : Member => sc m.key)
      (s.filter (fun m => Candidate ns q m.key))).Pairwise (PreferredBy sc s) :=
    sortDesc_pairwise_stable ((pairwise_idxOf hs).sublist List.filter_sublist)
  have hdef : rankedBy sc ns q s k = (sortDesc (fun m : Member => sc m.key)
      (s.filter (fun m => Candidate ns q m.key))).take k := rfl
  rw [hdef]
  constructor
  · intro m hm
    have := hperm.mem_iff.1 (List.mem_of_mem_take hm)
    rw [List.mem_filter, decide_eq_true_eq] at this
    exact this
  · exact hpw.sublist (List.take_sublist _ _)
  · rw [List.length_take, hperm.length_eq]
  · intro m hm hc hno r hr
    have hm' : m ∈ sortDesc (fun m : Member => sc m.key)
        (s.filter (fun m => Candidate ns q m.key)) :=
      hperm.mem_iff.2 (List.mem_filter.2 ⟨hm, by simpa using hc⟩)
    rw [← List.take_append_drop k (sortDesc _ _), List.mem_append] at hm'
    have hm'' := hm'.resolve_left hno
    rw [← List.take_append_drop k (sortDesc _ _), List.pairwise_append] at hpw
    exact hpw.2.2 r hr m hm''

/-- A ranking is unique. -/
theorem rankingBy_unique {sc : List Char → ℚ} {ns : List ℕ} {q : List Char} {s : List Member}
    {k : ℕ} {r r' : List Member} (h : RankingBy sc ns q s k r) (h' : RankingBy sc ns q s k r') :
    r = r' := by
  have nd : ∀ {t}, RankingBy sc ns q s k t → t.Nodup := by
    intro t ht
    apply ht.ordered.imp
    rintro a b hab rfl
    exact preferredBy_asymm hab hab
  have sub : ∀ {t t'}, RankingBy sc ns q s k t → RankingBy sc ns q s k t' → t ⊆ t' := by
    intro t t' ht ht' m hm
    by_contra hno
    have hl : t.length = t'.length := by rw [ht.length, ht'.length]
    have : ∃ m' ∈ t', m' ∉ t := by
      by_contra hc
      push Not at hc
      have h1 := ((List.subperm_of_subset (nd ht') hc).perm_of_length_le (by omega))
      exact hno (h1.mem_iff.2 hm)
    obtain ⟨m', hm', hno'⟩ := this
    have h1 := ht.best m' (ht'.members m' hm').1 (ht'.members m' hm').2 hno' m hm
    have h2 := ht'.best m (ht.members m hm).1 (ht.members m hm).2 hno m' hm'
    exact preferredBy_asymm h1 h2
  have hp : r.Perm r' := (List.perm_ext_iff_of_nodup (nd h) (nd h')).2
    (fun m => ⟨fun hm => sub h h' hm, fun hm => sub h' h hm⟩)
  exact hp.eq_of_pairwise (fun a b _ _ hab hba => absurd hba (preferredBy_asymm hab))
    h.ordered h'.ordered

theorem rankedBy_nil {sc : List Char → ℚ} {ns : List ℕ} {q : List Char} {s : List Member} {k : ℕ}
    (h : ∀ m ∈ s, ¬ Candidate ns q m.key) : rankedBy sc ns q s k = [] := by
  unfold rankedBy
  have : s.filter (fun m => Candidate ns q m.key) = [] := by
    rw [List.filter_eq_nil_iff]
    intro m hm
    simpa using h m hm
  rw [this]; simp

/-! ## The scoring loop -/

theorem wsSimilarityF_group {ns : List ℕ} (hnd : ns.Nodup) (q w : List Char) :
    wsSimilarityF R (mapVals (List.map R.fl) (Dict.group (allLocated ns q)))
      (mapVals (List.map R.fl) (Dict.group (allLocated ns w))) = .ok (simSF R ns q w) := by
  have hget : ∀ (v g : List Char), g ∈ allGrams ns v →
      pyKey (mapVals (List.map R.fl) (Dict.group (allLocated ns v))) g =
        .ok ((positionsOf g.length v g).map R.fl) := by
    intro v g hg
    unfold pyKey
    rw [get?_mapVals, Dict.get?_group, if_pos (by rw [map_fst_allLocated]; exact hg),
      locs_allLocated hnd (length_mem_of_allGrams hg)]
    rfl
  have hhas : ∀ (v g : List Char),
      Dict.has (mapVals (List.map R.fl) (Dict.group (allLocated ns v))) g =
        decide (g ∈ allGrams ns v) := by
    intro v g
    rw [Bool.eq_iff_iff, has_mapVals, Dict.has_iff, Dict.mem_keys_group, map_fst_allLocated,
      decide_eq_true_eq]
  have hlen : ∀ v : List Char,
      (mapVals (List.map R.fl) (Dict.group (allLocated ns v))).length =
        (firsts (allGrams ns v)).length := by
    intro v
    rw [length_mapVals, ← map_fst_allLocated, ← keys_group_firsts]
    unfold Dict.keys
    rw [List.length_map]
  have hkeys : ∀ v : List Char,
      Dict.keys (mapVals (List.map R.fl) (Dict.group (allLocated ns v))) =
        firsts (allGrams ns v) := by
    intro v
    rw [keys_mapVals, keys_group_firsts, map_fst_allLocated]
  unfold wsSimilarityF simSF visited
  simp only [hlen]
  split
  · simp only [hkeys, hhas]
    have hsub : ∀ g ∈ firsts (allGrams ns q), g ∈ allGrams ns q := fun g hg => mem_firsts.1 hg
    revert hsub
    generalize firsts (allGrams ns q) = l
    intro hsub
    generalize (0 : ℚ) = s
    induction l generalizing s with
    | nil => rfl
    | cons g l ih =>
      have hq := hsub g List.mem_cons_self
      rw [List.foldlM_cons]
      by_cases hg : g ∈ allGrams ns w
      · rw [List.filter_cons_of_pos (by simpa using hg), List.foldl_cons, if_pos (by simpa using hg),
          hget q g hq, hget w g hg]
        simp only [bind, Except.bind, pure, Except.pure, List.length_map]
        exact ih (fun g hg => hsub g (List.mem_cons_of_mem _ hg)) _
      · rw [List.filter_cons_of_neg (by simpa using hg), if_neg (by simpa using hg)]
        simp only [bind, Except.bind, pure, Except.pure]
        exact ih (fun g hg => hsub g (List.mem_cons_of_mem _ hg)) _
  · simp only [hkeys, hhas]
    have hsub : ∀ g ∈ firsts (allGrams ns w), g ∈ allGrams ns w := fun g hg => mem_firsts.1 hg
    revert hsub
    generalize firsts (allGrams ns w) = l
    intro hsub
    generalize (0 : ℚ) = s
    induction l generalizing s with
    | nil => rfl
    | cons g l ih =>
      have hw := hsub g List.mem_cons_self
      rw [List.foldlM_cons]
      by_cases hg : g ∈ allGrams ns q
      · rw [List.filter_cons_of_pos (by simpa using hg), List.foldl_cons, if_pos (by simpa using hg),
          hget q g hg, hget w g hw]
        simp only [bind, Except.bind, pure, Except.pure, List.length_map]
        exact ih (fun g hg => hsub g (List.mem_cons_of_mem _ hg)) _
      · rw [List.filter_cons_of_neg (by simpa using hg), if_neg (by simpa using hg)]
        simp only [bind, Except.bind, pure, Except.pure]
        exact ih (fun g hg => hsub g (List.mem_cons_of_mem _ hg)) _

theorem scoreStepF_eq {E : List Entry} (h : WSRep cf un st E) (q : List Char) {e : Entry}
    (he : e ∈ E) (acc : List (ℚ × ℕ)) :
    scoreStepF R (flWS R st) (computeInfoF R (flWS R st) q) acc e.id =
      .ok (acc ++ if 0 < totalCount (st.nList.map Int.toNat) q e.m.key
        then [(-(scoreSF R (st.nList.map Int.toNat) q e.m.key), e.id)] else []) := by
  unfold scoreStepF
  have h1 : pyKey (flWS R st).info e.id = .ok (flInfo R (st.computeInfo e.m.key)) := by
    unfold pyKey flWS
    simp only
    rw [get?_mapVals, h.info, get?_map_id h.ids he]
    rfl
  have h2 : ∀ w, (flInfo R (st.computeInfo w)).ngramsPos =
      mapVals (List.map R.fl) (Dict.group (allLocated (st.nList.map Int.toNat) w)) := by
    intro w
    unfold flInfo
    simp only
    congr 1
    exact ngramsPos_eq h.sizesPos w
  have h3 : ∀ w, (flInfo R (st.computeInfo w)).numGrams = (st.computeInfo w).numGrams := fun _ => rfl
  have h4 : (flWS R st).computeInfo q = st.computeInfo q := rfl
  simp only [computeInfoF_eq, h4, h1, h2, h3, wsSimilarityF_group h.nodupN, numGrams_computeInfo h,
    ← totalCount_eq, bind, Except.bind, pure, Except.pure]
  split
  · rfl
  · simp

theorem foldlM_scoreStepF {E : List Entry} (h : WSRep cf un st E) (q : List Char) (T : List Entry)
    (hT : ∀ e ∈ T, e ∈ E) (acc : List (ℚ × ℕ)) :
    (T.map (fun e => e.id)).foldlM
        (scoreStepF R (flWS R st) (computeInfoF R (flWS R st) q)) acc =
      .ok (acc ++ (T.filter (fun e => 0 < totalCount (st.nList.map Int.toNat) q e.m.key)).map
        (fun e => (-(scoreSF R (st.nList.map Int.toNat) q e.m.key), e.id))) := by
  induction T generalizing acc with
  | nil => simp [pure, Except.pure]
  | cons e T ih =>
    rw [List.map_cons, List.foldlM_cons, scoreStepF_eq h q (hT e List.mem_cons_self)]
    simp only [bind, Except.bind]
    rw [ih (fun e he => hT e (List.mem_cons_of_mem _ he)), List.append_assoc]
    congr 2
    by_cases hc : 0 < totalCount (st.nList.map Int.toNat) q e.m.key
    · rw [if_pos hc, List.filter_cons_of_pos (by simpa using hc)]; rfl
    · rw [if_neg hc, List.filter_cons_of_neg (by simpa using hc)]; rfl

/-- `rankF` on a set of ids that covers the candidates. -/
theorem rankF_eq {E : List Entry} (h : WSRep cf un st E) (q : List Char) {T : List ℕ}
    (hT : T.Nodup) (hsub : ∀ i ∈ T, ∃ e ∈ E, e.id = i)
    (hcand : ∀ e ∈ E, (e.id ∈ T ∧ 0 < totalCount (st.nList.map Int.toNat) q e.m.key) ↔
      Candidate (st.nList.map Int.toNat) q e.m.key) (k : ℕ) :
    rankF R (flWS R st) q T k = .ok ((rankedBy (scoreSF R (st.nList.map Int.toNat) q)
      (st.nList.map Int.toNat) q (E.map (fun e => e.m)) k).map
      (fun m => (m.orig, scoreSF R (st.nList.map Int.toNat) q m.key))) := by
  obtain ⟨T', rfl, hT'⟩ := exists_entries hsub
  generalize hns : st.nList.map Int.toNat = ns at *
  let sc : Entry → ℚ := fun e => scoreSF R ns q e.m.key
  let f : Entry → ℚ × ℕ := fun e => (-(sc e), e.id)
  let C : List Entry := E.filter (fun e => Candidate ns q e.m.key)
  have hC : (T'.filter (fun e => 0 < totalCount ns q e.m.key)).Perm C := by
    rw [List.perm_ext_iff_of_nodup]
    · intro e
      rw [List.mem_filter, List.mem_filter, decide_eq_true_eq, decide_eq_true_eq]
      constructor
      · rintro ⟨h1, h2⟩
        have he := hT' e h1
        exact ⟨he, (hcand e he).1 ⟨List.mem_map.2 ⟨e, h1, rfl⟩, h2⟩⟩
      · rintro ⟨he, hc⟩
        obtain ⟨h1, h2⟩ := (hcand e he).2 hc
        obtain ⟨e', he', hid⟩ := List.mem_map.1 h1
        rw [id_inj h.ids (hT' e' he') he hid] at he'
        exact ⟨he', h2⟩
    · exact (List.Nodup.of_map _ hT).filter _
    · exact (List.Nodup.of_map _ (nodup_ids h.ids)).filter _
  let L : List Entry := sortDesc sc C
  have hL : L.Perm C := sortDesc_perm _ _
  have hLE : ∀ e ∈ L, e ∈ E := fun e he => (List.mem_filter.1 (hL.mem_iff.1 he)).1
  have hsorted : (L.map f).Pairwise tupleLe := by
    rw [List.pairwise_map]
    have : L.Pairwise (fun a b => sc b < sc a ∨ (sc b = sc a ∧ a.id < b.id)) :=
      sortDesc_pairwise_stable (h.ids.sublist List.filter_sublist)
    apply this.imp
    rintro a b (hl | ⟨h1, h2⟩)
    · exact Or.inl (neg_lt_neg hl)
    · exact Or.inr ⟨by simp only [f, h1], le_of_lt h2⟩
  have hsort : ((T'.filter (fun e => 0 < totalCount ns q e.m.key)).map f).insertionSort tupleLe =
      L.map f := by
    apply List.Perm.eq_of_pairwise (fun a b _ _ h1 h2 => tupleLe_antisymm h1 h2)
      (List.pairwise_insertionSort _ _) hsorted
    exact (List.perm_insertionSort _ _).trans ((hC.trans hL.symm).map f)
  unfold rankF
  rw [foldlM_scoreStepF h q T' hT' []]
  simp only [bind, Except.bind, List.nil_append, hns]
  rw [show (T'.filter (fun e => 0 < totalCount ns q e.m.key)).map
      (fun e => (-(scoreSF R ns q e.m.key), e.id)) =
      (T'.filter (fun e => 0 < totalCount ns q e.m.key)).map f from rfl, hsort, ← List.map_take]
  have hm := mapM_pyKey h sc (L.take k) (fun e he => hLE e (List.mem_of_mem_take he))
  simp only [bind, Except.bind] at hm
  rw [show (flWS R st).originals = st.originals from rfl, hm]
  congr 1
  have hmap : L.map (fun e => e.m) = ((E.map (fun e => e.m)).filter
      (fun m => Candidate ns q m.key)).insertionSort
      (fun a b => scoreSF R ns q b.key ≤ scoreSF R ns q a.key) := by
    rw [show L = C.insertionSort (fun a b => sc b ≤ sc a) from rfl,
      insertionSort_map (t := fun a b => scoreSF R ns q b.key ≤ scoreSF R ns q a.key)
        (fun e : Entry => e.m) (fun a b => Iff.rfl), List.filter_map]
    rfl
  unfold rankedBy
  rw [← hmap, ← List.map_take, List.map_map]
  rfl

/-- `find_similar` on valid arguments. -/
theorem findSimilarF_eq {E : List Entry} (h : WSRep cf un st E) {k : ℤ} (hk : 0 < k) {ms : MinSim}
    (hms : ms.accepted = true) {q : List Char} :
    findSimilarF R cf un (flWS R st) (.str q) (.int k) ms =
      if q = [] ∨ E = [] then .ok []
      else
        match keyOf st.caseSensitive cf un q with
        | none => .error .valueError
        | some nq =>
          if nq = [] then .ok []
          else .ok ((rankedBy (scoreSF R (st.nList.map Int.toNat) nq) (st.nList.map Int.toNat) nq
            (E.map (fun e => e.m)) k.toNat).map
            (fun m => (m.orig, scoreSF R (st.nList.map Int.toNat) nq m.key))) := by
  unfold findSimilarF
  have hE : (flWS R st).vocab = [] ↔ E = [] := by
    rw [show (flWS R st).vocab = st.vocab from rfl, h.vocab]; simp
  have hn : (flWS R st).normalizeWord cf un q = st.normalizeWord cf un q := rfl
  have hfn : (flWS R st).filterN = st.filterN := rfl
  have hids : ∀ gs, (flWS R st).candidateIds gs = st.candidateIds gs := fun _ => rfl
  have hinfo : Dict.keys (flWS R st).info = Dict.keys st.info := keys_mapVals _ _
  simp only [if_neg (not_le.2 hk), hE, hn, hfn, hids, hinfo]
  rw [hms]
  simp only
  split
  · rfl
  rename_i hne
  rw [not_or] at hne
  rw [normalizeWord_eq]
  cases hkey : keyOf st.caseSensitive cf un q with
  | none => rfl
  | some nq =>
    simp only
    split
    · rfl
    cases hf : st.filterN with
    | none =>
      simp only
      apply rankF_eq h
      · rw [h.info]; unfold Dict.keys; rw [List.map_map]; exact nodup_ids h.ids
      · intro i hi
        rw [h.info] at hi
        unfold Dict.keys at hi
        rw [List.map_map] at hi
        obtain ⟨e, he, rfl⟩ := List.mem_map.1 hi
        exact ⟨e, he, rfl⟩
      · intro e he
        have hin : e.id ∈ Dict.keys st.info := by
          rw [h.info]; unfold Dict.keys; rw [List.map_map]; exact List.mem_map.2 ⟨e, he, rfl⟩
        have hfs : filterSize (st.nList.map Int.toNat) = none := by
          have := h.filter
          rw [hf] at this
          cases hc : filterSize (st.nList.map Int.toNat) with
          | none => rfl
          | some f => rw [hc] at this; cases this
        unfold Candidate
        rw [hfs]
        simp [hin]
    | some f =>
      have hfp := h.filterPos hf
      have hfs : filterSize (st.nList.map Int.toNat) = some f.toNat := by
        have := h.filter
        rw [hf] at this
        cases hc : filterSize (st.nList.map Int.toNat) with
        | none => rw [hc] at this; cases this
        | some f' =>
          rw [hc] at this
          simp only [Option.map_some, Option.some.injEq] at this
          rw [this]; rfl
      have hcand : ∀ e ∈ E, e.id ∈ st.candidateIds (wsGrams nq f).dedup ↔
          Candidate (st.nList.map Int.toNat) nq e.m.key := by
        intro e he
        rw [mem_candidateIds]
        unfold Candidate
        rw [hfs]
        simp only
        constructor
        · rintro ⟨g, hg, hi⟩
          rw [List.mem_dedup, wsGrams_eq hfp] at hg
          rw [h.idx] at hi
          obtain ⟨e', he', hid, f', hf', hm⟩ := hi
          rw [hf] at hf'
          injection hf' with hf'
          subst hf'
          rw [id_inj h.ids he' he hid] at hm
          exact ⟨g, hg, hm⟩
        · rintro ⟨g, hg, hm⟩
          refine ⟨g, by rw [List.mem_dedup, wsGrams_eq hfp]; exact hg, ?_⟩
          rw [h.idx]
          exact ⟨e, he, rfl, f, hf, hm⟩
      have hsub : ∀ i ∈ st.candidateIds (wsGrams nq f).dedup, ∃ e ∈ E, e.id = i := by
        intro i hi
        obtain ⟨g, _, hi⟩ := mem_candidateIds.1 hi
        obtain ⟨e, he, hid, _⟩ := (h.idx g i).1 hi
        exact ⟨e, he, hid⟩
      have hnil : st.candidateIds (wsGrams nq f).dedup = [] →
          rankedBy (scoreSF R (st.nList.map Int.toNat) nq) (st.nList.map Int.toNat) nq
            (E.map (fun e => e.m)) k.toNat = [] := by
        intro hc
        apply rankedBy_nil
        intro m hm hcm
        obtain ⟨e, he, rfl⟩ := List.mem_map.1 hm
        have := (hcand e he).2 hcm
        rw [hc] at this
        simp at this
      simp only
      split
      · rename_i hgs
        rw [hnil (by rw [hgs]; rfl)]; rfl
      · split
        · rename_i hids
          rw [hnil hids]; rfl
        · apply rankF_eq h nq (nodup_candidateIds _) hsub
          intro e he
          rw [hcand e he]
          constructor
          · exact fun hx => hx.1
          · intro hx
            refine ⟨hx, ?_⟩
            unfold Candidate at hx
            rw [hfs] at hx
            obtain ⟨g, hg, _⟩ := hx
            exact totalCount_pos_of_gram (filterSize_mem hfs) hg

end Fp
end Verif
