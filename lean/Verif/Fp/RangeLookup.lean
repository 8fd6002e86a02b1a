import Verif.Fp.RangeIndex

/-!
# Lookups of word lists within the range of exponents
-/

namespace Verif
namespace Fp

open GramSpec IndexSpec

variable {comp : Bool} {O : FOps} {cf : List Char → List Char}

/-! ## Adding words -/

theorem addGramsF_range (hO : IsDouble comp O) (st : WL) {w : List Char} (hw : w.length ≤ 2 ^ 48)
    (idx : ℕ) : addGramsF O st w idx = addGramsF (unbounded comp) st w idx := by
  rw [addGramsF_eq, addGramsF_eq]
  congr 1
  apply List.map_congr_left
  rintro ⟨g, ps⟩ hp
  unfold gramItems at hp
  obtain ⟨n, _, hp⟩ := List.mem_flatMap.1 hp
  obtain ⟨_, rfl⟩ := mem_group_locatedOf.1 hp
  have hl := gramsOf_len_le n w
  have hf : Fracs (Dict.locs (locatedOf (getNGrams w n)) g) := by
    rw [← posOf_eq, getNGrams_eq_gramsOf]
    exact fracs_posOf (by omega) g
  simp only
  rw [(hf.map_fl hO).1, unbounded_fl]

/-- The words are not too long, folded. -/
def SmallWord (cf : List Char → List Char) : PyVal → Prop
  | .str w => w.length ≤ 2 ^ 48 ∧ (cf w).length ≤ 2 ^ 48
  | _ => True

theorem SmallWord.fold {w : List Char} (h : SmallWord cf (.str w)) (st : WL) :
    (st.fold cf w).length ≤ 2 ^ 48 := by
  unfold WL.fold
  split
  · exact h.2
  · exact h.1

theorem addWordF_range (hO : IsDouble comp O) (st : WL) {v : PyVal} (hv : SmallWord cf v) :
    addWordF O cf st v = addWordF (unbounded comp) cf st v := by
  cases v with
  | int i => rfl
  | other => rfl
  | str w =>
    unfold addWordF
    simp only
    split
    · rfl
    split
    · rfl
    split
    · rfl
    cases st.resolve cf (st.fold cf w) with
    | mk st' o =>
      cases o with
      | error e => rfl
      | ok idx => simp only [addGramsF_range hO _ (hv.fold st)]

/-- Words of the calls. -/
def SmallOp (cf : List Char → List Char) : WLOp → Prop
  | .add v => SmallWord cf v
  | .lookup v _ _ => SmallWord cf v

theorem runF_range (hO : IsDouble comp O) (st : WL) (ops : List WLOp)
    (h : ∀ op ∈ ops, SmallOp cf op) : runF O cf st ops = runF (unbounded comp) cf st ops := by
  unfold runF
  apply List.foldl_ext
  intro s op hop
  cases op with
  | add v =>
    have hv : SmallWord cf v := h _ hop
    simp only [stepF, addWordF_range hO s hv]
  | lookup a b c => rfl

/-! ## The two passes -/

theorem dict_ext {κ ν : Type} [DecidableEq κ] {d d' : Dict κ ν} (hk : Dict.keys d = Dict.keys d')
    (hn : (Dict.keys d).Nodup) (hg : ∀ k ∈ Dict.keys d, Dict.get? d k = Dict.get? d' k) : d = d' := by
  induction d generalizing d' with
  | nil => cases d' with
    | nil => rfl
    | cons p d' => cases hk
  | cons p d ih =>
    cases d' with
    | nil => cases hk
    | cons p' d' =>
      obtain ⟨k, v⟩ := p
      obtain ⟨k', v'⟩ := p'
      simp only [Dict.keys_cons, List.cons.injEq] at hk
      obtain ⟨rfl, hk⟩ := hk
      rw [Dict.keys_cons, List.nodup_cons] at hn
      have h0 := hg k (by simp)
      simp only [Dict.get?, if_true, Option.some.injEq] at h0
      rw [h0, ih hk hn.2]
      intro j hj
      have h1 := hg j (by simp [hj])
      have hne : k ≠ j := by rintro rfl; exact hn.1 hj
      simpa only [Dict.get?, if_neg hne] using h1

theorem keys_accumU (N : ℕ) (ev : List Update) :
    Dict.keys (accumU N [] ev) = firsts (ev.map Prod.fst) := by
  induction ev using List.reverseRecOn with
  | nil => rfl
  | append_singleton ev e ih =>
    rw [accumU_append_singleton, bumpWith, keys_set_firsts, ih, List.map_append]
    unfold firsts
    rw [List.foldl_append]
    rfl

theorem accumU_congr {N : ℕ} {ev ev' : List Update} (h : ev.map Prod.fst = ev'.map Prod.fst)
    (hr : ∀ oi ∈ ev.map Prod.fst, rowU N ev oi = rowU N ev' oi) :
    accumU N [] ev = accumU N [] ev' := by
  apply dict_ext
  · rw [keys_accumU, keys_accumU, h]
  · exact nodup_keys_accumU _ _
  · intro k hk
    rw [keys_accumU, mem_firsts] at hk
    rw [get?_accumU, get?_accumU, ← h, if_pos hk, if_pos hk, hr k hk]

variable {st stF : WL} {q : List Char}

/-- All stored words and the query are short enough. -/
def Short (st : WL) (q : List Char) : Prop :=
  q.length ≤ 2 ^ 48 ∧ ∀ w ∈ st.wordList, w.length ≤ 2 ^ 48

theorem mem_minScoresF {R : FOps} (hi : WLInv cf st) (normalize : Bool) {p : ℕ × List ℚ}
    {ms : Dict ℕ (List ℚ)} (h : minScoresF R st q normalize = .ok ms) (hp : p ∈ ms) :
    ∃ w ∈ st.wordList, p.2 = lowerVecF R st.nList normalize q w := by
  obtain ⟨ms', h', hperm⟩ := minScoresF_perm (R := R) hi q normalize
  rw [h] at h'
  injection h' with h'
  subst h'
  obtain ⟨⟨w, i⟩, hm, rfl⟩ := List.mem_map.1 (hperm.mem_iff.1 hp)
  exact ⟨w, List.mem_of_getElem? (mem_eligible.1 hm).1, rfl⟩

theorem minScoresF_range (hO : IsDouble comp O) (hi : WLInv cf st) (hs : Short st q)
    (normalize : Bool) :
    minScoresF O st q normalize = minScoresF (unbounded comp) st q normalize := by
  rw [minScoresF_eq hi, minScoresF_eq hi]
  congr 1
  apply accumU_congr
  · rw [map_fst_minUpdates, map_fst_minUpdates]
  · intro oi hoi
    rw [map_fst_minUpdates] at hoi
    obtain ⟨w, hw, he⟩ := (mem_minEvents hi q normalize oi).1 hoi
    rw [rowU_minUpdates hi q normalize hw he.1, rowU_minUpdates hi q normalize hw he.1]
    exact (lowerVecF_range hO (unbounded_fl comp) _ _ hs.1 (hs.2 w (List.mem_of_getElem? hw))).1

theorem matchScoresF_range (hO : IsDouble comp O) (hi : WLInv cf st) (hs : Short st q)
    (h1 : Rounded O st stF) (h2 : Rounded (unbounded comp) st stF) (possible : List ℕ) :
    matchScoresF O stF q possible = matchScoresF (unbounded comp) stF q possible := by
  by_cases h : ∃ n ∈ stF.nList, (getNGrams q n).length = 1
  · rw [matchScoresF_error q possible h, matchScoresF_error q possible h]
  · push Not at h
    rw [matchScoresF_ok q possible h, matchScoresF_ok q possible h]
    congr 1
    apply accumU_congr
    · rw [map_fst_matchUpdates h1, map_fst_matchUpdates h2]
    · intro oi hoi
      rw [map_fst_matchUpdates h1] at hoi
      obtain ⟨hp, w, hw, he⟩ := (mem_matchEvents hi q possible oi).1 hoi
      rw [rowU_matchUpdates hi h1 q hw hp, rowU_matchUpdates hi h2 q hw hp]
      exact List.map_congr_left fun n _ =>
        (simNF_range hO (unbounded_fl comp) n hs.1 (hs.2 w (List.mem_of_getElem? hw))).1

theorem mapM_congr_mem {α β : Type} {f g : α → Except PyErr β} (l : List α)
    (h : ∀ a ∈ l, f a = g a) : l.mapM f = l.mapM g := by
  induction l with
  | nil => rfl
  | cons a l ih =>
    rw [List.mapM_cons, List.mapM_cons, h a List.mem_cons_self,
      ih fun b hb => h b (List.mem_cons_of_mem _ hb)]

theorem mapM_mem {α β : Type} {f : α → Except PyErr β} {l : List α} {r : List β}
    (h : l.mapM f = .ok r) {y : β} (hy : y ∈ r) : ∃ x ∈ l, f x = .ok y := by
  induction l generalizing r with
  | nil =>
    simp only [List.mapM_nil, pure, Except.pure] at h
    injection h with h
    subst h
    simp at hy
  | cons a l ih =>
    rw [List.mapM_cons] at h
    simp only [bind, Except.bind] at h
    cases ha : f a with
    | error e => rw [ha] at h; cases h
    | ok b =>
      rw [ha] at h
      simp only at h
      cases hl : l.mapM f with
      | error e => rw [hl] at h; cases h
      | ok r' =>
        rw [hl] at h
        simp only [pure, Except.pure] at h
        injection h with h
        subst h
        rcases List.mem_cons.1 hy with rfl | hy
        · exact ⟨a, List.mem_cons_self, ha⟩
        · obtain ⟨x, hx, hfx⟩ := ih hl hy
          exact ⟨x, List.mem_cons_of_mem _ hx, hfx⟩

theorem lookupSimilarityF_range (hO : IsDouble comp O) (hi : WLInv cf st) (hs : Short st q)
    (h1 : Rounded O st stF) (h2 : Rounded (unbounded comp) st stF) (hN : st.nList.length ≤ 2 ^ 20)
    (topK : ℕ) (normalize : Bool) :
    lookupSimilarityF O (mean1F O) stF q topK normalize =
      lookupSimilarityF (unbounded comp) (mean1F (unbounded comp)) stF q topK normalize := by
  have hmin : ∀ R : FOps, minScoresF R stF q normalize = minScoresF R st q normalize := by
    intro R
    obtain ⟨Q, rfl, _⟩ := h1
    rfl
  have hm := minScoresF_range hO hi hs normalize
  obtain ⟨ms, hms, -⟩ := minScoresF_perm (R := (unbounded comp : FOps)) hi q normalize
  have hrow : ∀ p ∈ ms, ∃ w ∈ st.wordList,
      p.2 = lowerVecF (unbounded comp) st.nList normalize q w :=
    fun p hp => mem_minScoresF hi normalize hms hp
  have hrange : ∀ w ∈ st.wordList, _ := fun w hw =>
    lowerVecF_range hO (unbounded_fl comp) st.nList normalize hs.1 (hs.2 w hw)
  have hagg : ms.map (fun p => mean1F O p.2) = ms.map (fun p => mean1F (unbounded comp) p.2) := by
    apply List.map_congr_left
    intro p hp
    obtain ⟨w, hw, he⟩ := hrow p hp
    rw [he]
    exact (hrange w hw).2.1.mean hO (by simpa [lowerVecF] using hN)
  have hsurv : ∀ t, survivorsF O (mean1F O) ms t =
      survivorsF (unbounded comp) (mean1F (unbounded comp)) ms t := by
    intro t
    unfold survivorsF
    congr 1
    apply List.filter_congr
    intro p hp
    obtain ⟨w, hw, he⟩ := hrow p hp
    rw [he, (hrange w hw).2.2.1,
      (hrange w hw).2.2.2.mean hO (by simpa [lowerVecF] using hN)]
  have hmatch : ∀ possible, _ := fun possible => matchScoresF_range hO hi hs h1 h2 possible
  unfold lookupSimilarityF
  rw [hmin, hmin, hm, hms]
  simp only [bind, Except.bind, hagg, hsurv, hmatch]
  by_cases hk : 1 ≤ topK
  swap
  · simp only [ge_iff_le, hk, not_false_eq_true, if_true, throw, throwThe, MonadExceptOf.throw]
  simp only [ge_iff_le, hk, not_true_eq_false, if_false]
  split
  · rfl
  simp only [pure, Except.pure]
  cases minAcceptable (ms.map fun p => mean1F (unbounded comp) p.2) topK with
  | error e => rfl
  | ok t =>
    simp only
    cases hmm : matchScoresF (unbounded comp) stF q
        (survivorsF (unbounded comp) (mean1F (unbounded comp)) ms t) with
    | error e => rfl
    | ok ms' =>
      simp only
      -- the rows of the second pass
      have hq1 : ∀ n ∈ st.nList, (getNGrams q n).length ≠ 1 := by
        intro n hn hc
        have hn' : n ∈ stF.nList := by obtain ⟨Q, rfl, _⟩ := h1; exact hn
        rw [matchScoresF_error q _ ⟨n, hn', hc⟩] at hmm
        cases hmm
      obtain ⟨ms'', hms'', -, hspec⟩ := matchScoresF_spec hi h2 q
        (survivorsF (unbounded comp) (mean1F (unbounded comp)) ms t) hq1
      rw [hmm] at hms''
      injection hms'' with hms''
      subst hms''
      have hnorm : ∀ p ∈ ms', normalizeRowF O stF q normalize p =
          normalizeRowF (unbounded comp) stF q normalize p ∧ ∀ p',
          normalizeRowF (unbounded comp) stF q normalize p = .ok p' →
            mean1F O p'.2 = mean1F (unbounded comp) p'.2 := by
        rintro ⟨oi, v⟩ hp
        obtain ⟨_, w, hw, _, rfl⟩ := (hspec oi v).1 hp
        have hwl := hs.2 w (List.mem_of_getElem? hw)
        have hv : (st.nList.map fun n => simNF (unbounded comp) n q w) =
            st.nList.map fun n => simNF O n q w := List.map_congr_left fun n _ =>
          ((simNF_range hO (unbounded_fl comp) n hs.1 hwl).1).symm
        have hU' := normalizeRowF_spec hi h2 q normalize hw
        have hO' := normalizeRowF_spec hi h1 q normalize hw
        rw [← hv] at hO'
        obtain ⟨r1, r2⟩ := scoreVecF_range hO (unbounded_fl comp) st.nList normalize hs.1 hwl
        rw [r1] at hO'
        refine ⟨by rw [hO', hU'], ?_⟩
        intro p' hp'
        rw [hU'] at hp'
        split at hp'
        · cases hp'
        · injection hp' with hp'
          rw [← hp']
          exact r2.mean hO (by simpa [scoreVecF] using hN)
      rw [mapM_congr_mem ms' fun p hp => (hnorm p hp).1]
      cases hmp : ms'.mapM (normalizeRowF (unbounded comp) stF q normalize) with
      | error e => rfl
      | ok normed =>
        simp only
        congr 1
        apply List.map_congr_left
        intro p' hp'
        obtain ⟨p, hp, he⟩ := mapM_mem hmp hp'
        rw [(hnorm p hp).2 p' he]

theorem lookupF_range (hO : IsDouble comp O) (hi : WLInv cf st) (h1 : Rounded O st stF)
    (h2 : Rounded (unbounded comp) st stF) (hN : st.nList.length ≤ 2 ^ 20)
    (hw : ∀ w ∈ st.wordList, w.length ≤ 2 ^ 48) {word : PyVal} (hword : SmallWord cf word)
    (topK : PyVal) (normalize : Bool) :
    lookupF O (mean1F O) cf stF word topK normalize =
      lookupF (unbounded comp) (mean1F (unbounded comp)) cf stF word topK normalize := by
  unfold lookupF
  simp only [bind, Except.bind]
  cases hc : stF.checkLookup cf word topK with
  | error e => rfl
  | ok r =>
    obtain ⟨q, k⟩ := r
    simp only
    have hq : q.length ≤ 2 ^ 48 := by
      unfold WL.checkLookup at hc
      cases word with
      | int i => cases hc
      | other => cases hc
      | str w =>
        simp only at hc
        split at hc
        · cases hc
        cases topK with
        | str s => cases hc
        | other => cases hc
        | int j =>
          simp only at hc
          split at hc
          · cases hc
          split at hc
          · cases hc
          · injection hc with hc
            injection hc with hc _
            rw [← hc]
            exact hword.fold stF
    rw [lookupSimilarityF_range hO hi ⟨hq, hw⟩ h1 h2 hN]
    have hwl : stF.wordList = st.wordList := by obtain ⟨Q, rfl, _⟩ := h1; rfl
    have hres : ∀ p : ℕ × ℚ, rescoreF O stF q normalize p =
        rescoreF (unbounded comp) stF q normalize p := by
      intro p
      unfold rescoreF
      cases hg : pyGet stF.wordList p.1 with
      | error e => rfl
      | ok w =>
        have hmem : w ∈ st.wordList := by
          rw [← hwl]
          unfold pyGet at hg
          cases hx : stF.wordList[p.1]? with
          | none => rw [hx] at hg; cases hg
          | some w' =>
            rw [hx] at hg
            injection hg with hg
            rw [← hg]
            exact List.mem_of_getElem? hx
        simp only [bind, Except.bind]
        rw [(nmdF_range hO (unbounded_fl comp) (show SmallArg (.str q) from hq)
          (show SmallArg (.str w) from hw w hmem)
          (show SmallArg (.int 2) by unfold SmallArg; norm_num) _ _).1]
    cases lookupSimilarityF (unbounded comp) (mean1F (unbounded comp)) stF q k normalize with
    | error e => rfl
    | ok scored =>
      simp only
      rw [mapM_congr_mem _ fun p _ => hres p]

end Fp
end Verif
