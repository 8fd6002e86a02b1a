import Verif.Index.V3Props
import Verif.Index.V5bRankProps

/-!
# Properties C224 and C225: `ApproxWordListV3` equals a full scan, ties included, and what follows
-/

namespace Verif

namespace IndexSpec

open GramSpec

/-- The matching words in the order in which a query comes across them: by size, then by n-gram of the
query in order of appearance, then by insertion. -/
def discovered3 (ns : List ℤ) (q : List Char) (words : List (List Char)) : List (List Char) :=
  firsts (ns.flatMap (fun n => (firsts (grams n.toNat q)).flatMap (fun g =>
    words.filter (fun w => g ∈ gramsOf n w))))

end IndexSpec

open GramSpec IndexSpec

variable {cf : List Char → List Char} {st : V3} {S : Type} [LinearOrder S]

theorem mem_discovered3 {ns : List ℤ} {q w : List Char} {words : List (List Char)} :
    w ∈ discovered3 ns q words ↔ w ∈ words ∧ Matches3 ns q w := by
  unfold discovered3 Matches3
  simp only [mem_firsts, List.mem_flatMap, List.mem_filter, decide_eq_true_eq]
  constructor
  · rintro ⟨n, hn, g, hg, hw, hgw⟩; exact ⟨hw, n, hn, g, hg, hgw⟩
  · rintro ⟨hw, n, hn, g, hg, hgw⟩; exact ⟨n, hn, g, hg, hw, hgw⟩

theorem discovered3_filter (ns : List ℤ) (q : List Char) (words : List (List Char))
    (p : List Char → Bool) :
    discovered3 ns q (words.filter p) = (discovered3 ns q words).filter p := by
  unfold discovered3
  rw [← firsts_filter, List.filter_flatMap]
  congr 1
  apply List.flatMap_congr
  intro n _
  rw [List.filter_flatMap]
  apply List.flatMap_congr
  intro g _
  rw [List.filter_comm p]

theorem discovered3_matches (ns : List ℤ) (q : List Char) (words : List (List Char)) :
    discovered3 ns q (words.filter (fun w => Matches3 ns q w)) = discovered3 ns q words := by
  rw [discovered3_filter, List.filter_eq_self]
  intro w hw
  simpa using (mem_discovered3.1 hw).2

theorem discovered3_perm (ns : List ℤ) (q : List Char) {words : List (List Char)}
    (hn : words.Nodup) :
    (discovered3 ns q words).Perm (words.filter (fun w => Matches3 ns q w)) := by
  refine (List.perm_ext_iff_of_nodup (show (discovered3 ns q words).Nodup from nodup_firsts _)
    (hn.filter _)).2 ?_
  intro w
  rw [mem_discovered3, List.mem_filter, decide_eq_true_eq]

/-- The word at an index. -/
def V3.wordAt (st : V3) (i : ℕ) : List Char := st.vocabulary.getD i []

theorem V3.wordAt_eq {i : ℕ} {w : List Char} (h : st.vocabulary[i]? = some w) : st.wordAt i = w := by
  simp only [V3.wordAt, List.getD_eq_getElem?_getD, h, Option.getD_some]

theorem V3.events_words (hi : V3Inv cf st) (q : List Char) :
    (firsts ((st.events q).map Prod.fst)).map st.wordAt = discovered3 st.nList q st.vocabulary := by
  have hmem : ∀ i ∈ (st.events q).map Prod.fst, st.vocabulary[i]? = some (st.wordAt i) := by
    intro i h
    obtain ⟨w, hw, _⟩ := (V3.mem_events hi q i).1 h
    rw [V3.wordAt_eq hw, hw]
  rw [← firsts_map]
  · unfold discovered3 V3.events
    congr 1
    rw [List.map_flatMap, List.map_flatMap]
    conv_rhs => rw [← List.zipIdx_map_fst 0 st.nList, List.flatMap_map]
    apply List.flatMap_congr
    rintro ⟨n, k⟩ hnk
    have hn : n ∈ st.nList := List.mem_of_getElem? (List.mem_zipIdx_iff_getElem?.1 hnk)
    simp only
    rw [List.map_flatMap, List.map_flatMap, Dict.group_eq_map, List.flatMap_map, keys_group,
      map_fst_locatedOf, v3QueryGrams_eq (hi.posN n hn)]
    apply List.flatMap_congr
    intro g hg
    have hlen := v3_length_of_mem (hi.posN n hn) (mem_firsts.1 hg)
    simp only
    rw [hi.positions g, List.map_map, List.map_map]
    unfold posEntries
    rw [List.map_filterMap]
    have : ∀ p ∈ st.vocabulary.zipIdx, Option.map ((st.wordAt ∘ Prod.fst) ∘ fun e : ℕ × List ℚ =>
        ((e.1, k, max ((Dict.locs (locatedOf (grams n.toNat q)) g).length : ℚ) e.2.length
          - emd (Dict.locs (locatedOf (grams n.toNat q)) g) e.2) : Event))
          (posEntry st.nList g p.1 p.2) =
        if g ∈ gramsOf n p.1 then some p.1 else none := by
      rintro ⟨w, i⟩ hp
      have hw := V3.wordAt_eq (List.mem_zipIdx_iff_getElem?.1 hp)
      unfold posEntry
      simp only [hlen, hn, true_and, getNGrams_eq_gramsOf]
      split
      · simp [hw]
      · rfl
    rw [List.filterMap_congr this]
    conv_rhs => rw [← List.zipIdx_map_fst 0 st.vocabulary, List.filter_map]
    generalize st.vocabulary.zipIdx = l
    induction l with
    | nil => rfl
    | cons p l ih =>
      by_cases h : g ∈ gramsOf n p.1
      · simp [h, ih]
      · simp [h, ih]
  · intro a ha b hb h
    have h1 := hmem a ha
    have h2 := hmem b hb
    rw [← h] at h2
    exact (List.getElem?_inj (List.getElem?_eq_some_iff.1 h1).1 hi.nodupW).1 (h1.trans h2.symm)

theorem V3.normalizeRow_fst {q : List Char} {p r : ℕ × List ℚ}
    (h : st.normalizeRow q p = .ok r) : r.1 = p.1 := by
  unfold V3.normalizeRow at h
  simp only [bind, Except.bind] at h
  split at h
  · cases h
  · injection h with h
    rw [← h]

omit [LinearOrder S] in
/-- The candidates with their scores in order, or the reason why there are none. -/
theorem V3.lookupScores_exact (agg : List ℚ → S) (hi : V3Inv cf st) (q : List Char) :
    if ∃ n ∈ st.nList, (q.length : ℤ) + 2 = n then
      st.lookupScores agg q = .error .zeroDivisionError
    else ∃ l : List (ℕ × List Char),
      l.map Prod.snd = discovered3 st.nList q st.vocabulary ∧
      (∀ p ∈ l, st.vocabulary[p.1]? = some p.2) ∧
      st.lookupScores agg q =
        if l ≠ [] ∧ ∃ n ∈ st.nList, (q.length : ℤ) + 3 = n then .error .zeroDivisionError
        else .ok (l.map (fun p => (p.1, agg (scoreVec3 st.nList q p.2)))) := by
  have hlen : ∀ n ∈ st.nList, (v3QueryGrams q n).length = 1 ↔ (q.length : ℤ) + 2 = n := by
    intro n hn
    have := hi.posN n hn
    rw [v3QueryGrams_eq this, grams, List.length_map, List.length_range, count_eq]
    omega
  have hs := V3.lookupScores_spec agg hi q
  by_cases h : ∃ n ∈ st.nList, (q.length : ℤ) + 2 = n
  · rw [if_pos h] at hs ⊢; exact hs
  rw [if_neg h] at hs ⊢
  have hne : ∀ n ∈ st.nList, (v3QueryGrams q n).length ≠ 1 :=
    fun n hn h' => h ⟨n, hn, (hlen n hn).1 h'⟩
  obtain ⟨l, h1, h2, h3⟩ := V3.matches_spec hi q hne
  refine ⟨l, ?_, h3, ?_⟩
  · have e := h1
    rw [V3.matches_ok q hne] at e
    injection e with e
    have e2 := congrArg (List.map Prod.fst) e
    rw [show (accum st.nList.length [] (st.events q)).map Prod.fst =
      Dict.keys (accum st.nList.length [] (st.events q)) from rfl, keys_accum, List.map_map] at e2
    have e3 : l.map Prod.snd = (l.map Prod.fst).map st.wordAt := by
      rw [List.map_map]
      apply List.map_congr_left
      intro p hp
      exact (V3.wordAt_eq (h3 p hp)).symm
    rw [e3, ← V3.events_words hi, e2]
    rfl
  · unfold V3.lookupScores
    rw [h1]
    simp only [bind, Except.bind]
    by_cases hd : ∃ n ∈ st.nList, (q.length : ℤ) + 3 = n
    · by_cases hl : l = []
      · subst hl
        rw [if_neg (by simp)]
        rfl
      · rw [if_pos ⟨hl, hd⟩, mapM_error (e := .zeroDivisionError)]
        · obtain ⟨p, hp⟩ := List.exists_mem_of_ne_nil l hl
          exact ⟨_, List.mem_map_of_mem hp, by rw [V3.normalizeRow_spec hi, if_pos hd]⟩
        · intro a ha
          obtain ⟨p, _, rfl⟩ := List.mem_map.1 ha
          left
          rw [V3.normalizeRow_spec hi, if_pos hd]
    · rw [if_neg (fun h => hd h.2), List.mapM_map,
        mapM_ok (g := fun p : ℕ × List Char => (p.1, scoreVec3 st.nList q p.2))]
      · simp only [pure, Except.pure, List.map_map]
        rfl
      · intro p _
        simp only [Function.comp_apply]
        rw [V3.normalizeRow_spec hi, if_neg hd]

/-- The result of a V3 lookup, including exceptions and the order of ties. -/
theorem V3.lookup_exact (hi : V3Inv cf st) (agg : List ℚ → S) {w q : List Char} (hw : w ≠ [])
    (hf : st.fold cf w = q) (hq : Clean q) (topK : Option ℤ) :
    st.lookup agg cf (.str w) topK =
      if ∃ n ∈ st.nList, (q.length : ℤ) + 2 = n then .error .zeroDivisionError
      else if discovered3 st.nList q st.vocabulary = [] then .error .indexError
      else if ∃ n ∈ st.nList, (q.length : ℤ) + 3 = n then .error .zeroDivisionError
      else .ok ((best (fun v => agg (scoreVec3 st.nList q v))
        (limit3 topK (discovered3 st.nList q st.vocabulary).length)
        (discovered3 st.nList q st.vocabulary)).map
          (fun v => (v, agg (scoreVec3 st.nList q v), bigramSim true q v))) := by
  have hr : st.lookup agg cf (.str w) topK = (do
        let counter ← st.lookupScores agg q
        let _ ← pyGet (mostCommon counter 1) 0
        let k := v3TopK topK counter.length
        let out ← (mostCommon counter (k * 2)).mapM (fun p => do
          let v ← pyGet st.vocabulary p.1
          let s ← nmd (.str q) (.str v) (.int 2) true true
          return (v, p.2, s))
        return out.take k) := by
    simp only [V3.lookup]
    rw [if_neg (by simpa using hw), hf, if_neg (by rintro (h | h); exacts [hq.1 h, hq.2 h])]
  have hs := V3.lookupScores_exact agg hi q
  by_cases c1 : ∃ n ∈ st.nList, (q.length : ℤ) + 2 = n
  · rw [if_pos c1] at hs ⊢
    rw [hr, hs]; rfl
  rw [if_neg c1] at hs ⊢
  obtain ⟨l, h1, h2, h3⟩ := hs
  rw [hr]
  rw [← h1]
  by_cases hl : l = []
  · subst hl
    rw [h3, if_neg (by simp)]
    rfl
  rw [if_neg (by simpa using hl)]
  by_cases c3 : ∃ n ∈ st.nList, (q.length : ℤ) + 3 = n
  · rw [if_pos c3, h3, if_pos ⟨hl, c3⟩]; rfl
  rw [if_neg c3, h3, if_neg (fun h => c3 h.2)]
  simp only [bind, Except.bind, mostCommon, List.length_map]
  rw [sortDesc_map (fun p : ℕ × List Char => (p.1, agg (scoreVec3 st.nList q p.2))) Prod.snd]
  set L := sortDesc (fun p : ℕ × List Char => agg (scoreVec3 st.nList q p.2)) l with hL
  have hLp : L.Perm l := sortDesc_perm _ _
  have hLne : L ≠ [] := fun h => hl (List.perm_nil.1 (h ▸ hLp.symm))
  have hget : ∃ x, pyGet (List.take 1 (L.map (fun p : ℕ × List Char =>
      (p.1, agg (scoreVec3 st.nList q p.2))))) 0 = .ok x := by
    obtain ⟨p0, L', hL'⟩ := List.exists_cons_of_ne_nil hLne
    exact ⟨_, by rw [hL']; rfl⟩
  obtain ⟨x, hx⟩ := hget
  rw [hx]
  simp only
  have hk : v3TopK topK l.length = limit3 topK l.length := by
    unfold limit3 v3TopK
    cases topK with
    | none => rfl
    | some k =>
      by_cases h : 0 < k
      · simp only [if_pos h]; rw [if_neg (by omega)]
      · simp only [if_neg h]; rw [if_pos (by omega)]
  rw [hk, ← List.map_take, List.mapM_map,
    mapM_ok (g := fun p : ℕ × List Char =>
      (p.2, agg (scoreVec3 st.nList q p.2), bigramSim true q p.2))]
  · simp only [pure, Except.pure]
    rw [← List.map_take, List.take_take, Nat.min_eq_left (by omega), best_eq,
      sortDesc_map Prod.snd (fun v => agg (scoreVec3 st.nList q v)) l, ← List.map_take, List.map_map]
    rfl
  · intro p hp
    have hpl : p ∈ l := hLp.subset (List.mem_of_mem_take hp)
    have hv := h2 p hpl
    have hcl : Clean p.2 := (hi.words _ (List.mem_of_getElem? hv)).1
    obtain ⟨y, hy⟩ := nmd2_ok hq hcl
    simp only [Function.comp_apply, pyGet_ok' hv, hy, pure, Except.pure, bigramSim]

/-- **C224.** Complete description of `lookup` after any sequence of `add_word` calls (positive sizes),
with the order of ties: apart from the exceptions of C70 it returns what a full scan without index
returns, ties staying in the order in which the query comes across the words. -/
theorem C224_v3_full_scan (hcf : ∀ w, cf (cf w) = cf w) {n : NArg} {cs : Bool} {st₀ : V3}
    (h0 : V3.new n cs = .ok st₀) (hn : ∀ n ∈ st₀.nList, 0 < n) (args : List PyVal)
    (agg : List ℚ → S) (w : List Char) (topK : Option ℤ) :
    let fold : List Char → List Char := fun w => if (!cs) = true then cf w else w
    let q := fold w
    let found := discovered3 st₀.nList q (stored3 fold (args.map PyVal.str?))
    w ≠ [] → Clean q →
    (st₀.addAll cf args).lookup agg cf (.str w) topK =
      (if ∃ n ∈ st₀.nList, (q.length : ℤ) + 2 = n then .error .zeroDivisionError
      else if found = [] then .error .indexError
      else if ∃ n ∈ st₀.nList, (q.length : ℤ) + 3 = n then .error .zeroDivisionError
      else .ok ((best (fun v => agg (scoreVec3 st₀.nList q v)) (limit3 topK found.length) found).map
        (fun v => (v, agg (scoreVec3 st₀.nList q v), bigramSim true q v)))) := by
  intro fold q found hw hq
  obtain ⟨hi, e1, e2, e3⟩ := V3.addAll_spec hcf h0 hn args
  have hfold : (st₀.addAll cf args).fold cf w = q := by unfold V3.fold; rw [e2]
  have h := V3.lookup_exact hi agg hw hfold hq topK
  rw [e1, e3] at h
  exact h

/-- Two words tie; "abcy" is met first because it shares an earlier n-gram of the query, although
"zbcd" was added before it. -/
example :
    discovered3 [3] "abcd".toList ["zbcd".toList, "abcy".toList, "abcd".toList] =
      ["abcy".toList, "abcd".toList, "zbcd".toList] ∧
    ((({ nList := [3], caseInsensitive := false, vocabulary := [], vocabIndices := [],
         ngramIndices := [] } : V3).addAll id
        [.str "zbcd".toList, .str "abcy".toList, .str "abcd".toList]).lookup mean1 id
          (.str "abcd".toList) none).map (List.map Prod.fst) =
      .ok ["abcd".toList, "abcy".toList, "zbcd".toList] := by
  decide +kernel

/-- The states reachable from the constructor with positive sizes. -/
def V3.Reachable (cf : List Char → List Char) (st : V3) : Prop :=
  ∃ n cs st₀ args, V3.new n cs = .ok st₀ ∧ (∀ n ∈ st₀.nList, 0 < n) ∧ st = st₀.addAll cf args

theorem V3.Reachable.inv (hcf : ∀ w, cf (cf w) = cf w) (h : st.Reachable cf) : V3Inv cf st := by
  obtain ⟨n, cs, st₀, args, h0, hn, rfl⟩ := h
  exact (V3.addAll_spec hcf h0 hn args).1

theorem V3.Reachable.addAll (h : st.Reachable cf) (args : List PyVal) :
    (st.addAll cf args).Reachable cf := by
  obtain ⟨n, cs, st₀, args₀, h0, hn, rfl⟩ := h
  exact ⟨n, cs, st₀, args₀ ++ args, h0, hn, by simp [V3.addAll]⟩

/-- A call that does not reach the search. -/
theorem V3.lookup_other {agg : List ℚ → S} {st st' : V3}
    (hci : st.caseInsensitive = st'.caseInsensitive) {word : PyVal} (topK : Option ℤ)
    (h : ∀ w, word = .str w → w ≠ [] → ¬ Clean (st.fold cf w)) :
    (∃ e, st.lookup agg cf word topK = .error e) ∧
    st.lookup agg cf word topK = st'.lookup agg cf word topK := by
  have hfold : ∀ w, st'.fold cf w = st.fold cf w := by intro w; unfold V3.fold; rw [hci]
  unfold V3.lookup
  cases word with
  | int i => exact ⟨⟨_, rfl⟩, rfl⟩
  | other => exact ⟨⟨_, rfl⟩, rfl⟩
  | str w =>
    simp only [hfold]
    by_cases hw : w.length = 0
    · rw [if_pos hw, if_pos hw]; exact ⟨⟨_, rfl⟩, rfl⟩
    rw [if_neg hw, if_neg hw]
    have := h w rfl (by simpa using hw)
    have hc : '\x02' ∈ st.fold cf w ∨ '\x03' ∈ st.fold cf w := by
      by_contra hc
      rw [not_or] at hc
      exact this hc
    rw [if_pos hc, if_pos hc]
    exact ⟨⟨_, rfl⟩, rfl⟩

/-- **C224.** The answer depends only on the configuration and on the stored words that share an
n-gram with the query, in the order in which they were added; exceptions included. -/
theorem C224_v3_only_matching_words (hcf : ∀ w, cf (cf w) = cf w) {st st' : V3}
    (hr : st.Reachable cf) (hr' : st'.Reachable cf) (hn : st.nList = st'.nList)
    (hci : st.caseInsensitive = st'.caseInsensitive) (agg : List ℚ → S) (word : PyVal)
    (topK : Option ℤ)
    (h : ∀ w, word = .str w → st.vocabulary.filter (fun v => Matches3 st.nList (st.fold cf w) v) =
      st'.vocabulary.filter (fun v => Matches3 st.nList (st.fold cf w) v)) :
    st.lookup agg cf word topK = st'.lookup agg cf word topK := by
  by_cases hc : ∀ w, word = .str w → w ≠ [] → ¬ Clean (st.fold cf w)
  · exact (V3.lookup_other hci topK hc).2
  · simp only [not_forall, not_not] at hc
    obtain ⟨w, rfl, hw, hq⟩ := hc
    have hf : st'.fold cf w = st.fold cf w := by unfold V3.fold; rw [hci]
    rw [V3.lookup_exact (hr.inv hcf) agg hw rfl hq topK,
      V3.lookup_exact (hr'.inv hcf) agg hw hf hq topK, ← hn, ← discovered3_matches, h w rfl,
      discovered3_matches]

theorem V3.addAll_words (hcf : ∀ w, cf (cf w) = cf w) {st : V3} (hr : st.Reachable cf)
    (args : List PyVal) :
    (st.addAll cf args).nList = st.nList ∧
    (st.addAll cf args).caseInsensitive = st.caseInsensitive ∧
    ∃ new, (st.addAll cf args).vocabulary = st.vocabulary ++ new ∧
      ∀ v ∈ new, ∃ u, PyVal.str u ∈ args ∧ v = st.fold cf u := by
  induction args using List.reverseRecOn with
  | nil => exact ⟨rfl, rfl, [], by simp [V3.addAll], by simp⟩
  | append_singleton args v ih =>
    obtain ⟨i1, i2, new, i3, i4⟩ := ih
    have hi := (hr.addAll args).inv hcf
    have e : st.addAll cf (args ++ [v]) = ((st.addAll cf args).addWord cf v).1 := by
      simp [V3.addAll]
    have i4' : ∀ x ∈ new, ∃ u, PyVal.str u ∈ args ++ [v] ∧ x = st.fold cf u := fun x hx => by
      obtain ⟨u, hu, hx⟩ := i4 x hx
      exact ⟨u, List.mem_append_left _ hu, hx⟩
    have same : (st.addAll cf args).nList = st.nList ∧
        (st.addAll cf args).caseInsensitive = st.caseInsensitive ∧
        ∃ new, (st.addAll cf args).vocabulary = st.vocabulary ++ new ∧
          ∀ x ∈ new, ∃ u, PyVal.str u ∈ args ++ [v] ∧ x = st.fold cf u := ⟨i1, i2, new, i3, i4'⟩
    rw [e, V3.addWord_cases hcf hi]
    cases v with
    | int i => exact same
    | other => exact same
    | str u =>
      simp only
      split
      · exact same
      split
      · exact same
      split
      · exact same
      split
      · exact same
      · refine ⟨i1, i2, new ++ [st.fold cf u], ?_, ?_⟩
        · show (st.addAll cf args).vocabulary ++ [(st.addAll cf args).fold cf u] = _
          rw [i3, List.append_assoc]
          unfold V3.fold; rw [i2]
        · intro x hx
          rcases List.mem_append.1 hx with hx | hx
          · exact i4' x hx
          · exact ⟨u, by simp, by simpa using hx⟩

/-- **C224.** Adding words that share no n-gram with the query does not change the answer. -/
theorem C224_v3_unrelated_words (hcf : ∀ w, cf (cf w) = cf w) {st : V3} (hr : st.Reachable cf)
    (agg : List ℚ → S) (word : PyVal) (topK : Option ℤ) (args : List PyVal)
    (h : ∀ w, word = .str w → ∀ v, PyVal.str v ∈ args →
      ¬ Matches3 st.nList (st.fold cf w) (st.fold cf v)) :
    (st.addAll cf args).lookup agg cf word topK = st.lookup agg cf word topK := by
  obtain ⟨c1, c2, new, c3, c4⟩ := V3.addAll_words hcf hr args
  symm
  refine C224_v3_only_matching_words hcf hr (hr.addAll args) c1.symm c2.symm agg word topK
    (fun w hw => ?_)
  rw [c3, List.filter_append, (List.filter_eq_nil_iff (l := new)).2, List.append_nil]
  intro v hv he
  obtain ⟨u, hu, rfl⟩ := c4 v hv
  exact h w hw u hu (by simpa using he)

example : ¬ Matches3 demo3.nList "abd".toList "pqr".toList ∧
    Matches3 demo3.nList "abd".toList "abc".toList ∧
    (demo3.addAll id [.str "pqr".toList]).vocabulary ≠ demo3.vocabulary := by
  decide +kernel

/-- **C225.** A positive `top_k` returns the beginning of the list returned without `top_k`, and it
does not matter for exceptions. -/
theorem C225_v3_prefix (hcf : ∀ w, cf (cf w) = cf w) {st : V3} (hr : st.Reachable cf)
    (agg : List ℚ → S) (word : PyVal) {k : ℤ} (hk : 0 < k) :
    st.lookup agg cf word (some k) = (st.lookup agg cf word none).map (List.take k.toNat) := by
  by_cases hc : ∀ w, word = .str w → w ≠ [] → ¬ Clean (st.fold cf w)
  · obtain ⟨⟨e, he⟩, -⟩ := V3.lookup_other (agg := agg) (st' := st) rfl none hc
    obtain ⟨⟨e', he'⟩, -⟩ := V3.lookup_other (agg := agg) (st' := st) rfl (some k) hc
    unfold V3.lookup at he he' ⊢
    cases word with
    | int i => rfl
    | other => rfl
    | str w =>
      simp only at he he' ⊢
      by_cases hw : w.length = 0
      · rw [if_pos hw, if_pos hw]; rfl
      rw [if_neg hw, if_neg hw]
      have := hc w rfl (by simpa using hw)
      have hm : '\x02' ∈ st.fold cf w ∨ '\x03' ∈ st.fold cf w := by
        by_contra hm
        rw [not_or] at hm
        exact this hm
      rw [if_pos hm, if_pos hm]; rfl
  · simp only [not_forall, not_not] at hc
    obtain ⟨w, rfl, hw, hq⟩ := hc
    rw [V3.lookup_exact (hr.inv hcf) agg hw rfl hq, V3.lookup_exact (hr.inv hcf) agg hw rfl hq]
    split
    · rfl
    split
    · rfl
    split
    · rfl
    · simp only [Except.map, limit3, if_pos hk]
      rw [← List.map_take, best_eq, best_eq, List.take_take]
      congr 2
      by_cases hl : k.toNat ≤ (discovered3 st.nList (st.fold cf w) st.vocabulary).length
      · rw [Nat.min_eq_left hl]
      · rw [Nat.min_eq_right (by omega), List.take_of_length_le (by rw [length_sortDesc]; omega),
          List.take_of_length_le (by rw [length_sortDesc])]

/-- **C225.** A new word changes nothing but its own appearance: the other words keep their scores
and their order. -/
theorem C225_v3_added_word (hcf : ∀ w, cf (cf w) = cf w) {st : V3} (hr : st.Reachable cf)
    {agg : List ℚ → S} {v : List Char} (hnew : st.fold cf v ∉ st.vocabulary) {word : PyVal}
    {res : List (List Char × S × ℚ)} (h : st.lookup agg cf word none = .ok res) :
    ∃ res', (st.addWord cf (.str v)).1.lookup agg cf word none = .ok res' ∧
      res = res'.filter (fun r => r.1 ≠ st.fold cf v) := by
  obtain ⟨c1, c2, new, c3, c4⟩ := V3.addAll_words hcf hr [.str v]
  have hr' := hr.addAll [.str v]
  have e : st.addAll cf [.str v] = (st.addWord cf (.str v)).1 := rfl
  rw [e] at c1 c2 c3 hr'
  generalize (st.addWord cf (.str v)).1 = st' at *
  by_cases hc : ∀ w, word = .str w → w ≠ [] → ¬ Clean (st.fold cf w)
  · obtain ⟨⟨e, he⟩, -⟩ := V3.lookup_other (agg := agg) (st' := st) rfl none hc
    rw [he] at h; cases h
  simp only [not_forall, not_not] at hc
  obtain ⟨w, rfl, hw, hq⟩ := hc
  have hf : st'.fold cf w = st.fold cf w := by unfold V3.fold; rw [c2]
  rw [V3.lookup_exact (hr.inv hcf) agg hw rfl hq] at h
  rw [V3.lookup_exact (hr'.inv hcf) agg hw hf hq, c1]
  have hfil : st.vocabulary = st'.vocabulary.filter (fun u => u ≠ st.fold cf v) := by
    rw [c3, List.filter_append, List.filter_eq_self.2, (List.filter_eq_nil_iff (l := new)).2,
      List.append_nil]
    · intro x hx hne
      obtain ⟨u, hu, rfl⟩ := c4 x hx
      have hu : u = v := by simpa using hu
      subst hu
      simp at hne
    · intro u hu
      simp only [ne_eq, decide_not, Bool.not_eq_true', decide_eq_false_iff_not]
      rintro rfl
      exact hnew hu
  split at h
  · cases h
  rename_i n1
  split at h
  · cases h
  rename_i n2
  split at h
  · cases h
  rename_i n3
  have n2' : discovered3 st.nList (st.fold cf w) st'.vocabulary ≠ [] := by
    intro h0
    apply n2
    rw [hfil, discovered3_filter, h0]; rfl
  refine ⟨_, by rw [if_neg n1, if_neg n2', if_neg n3], ?_⟩
  injection h with h
  rw [← h, List.filter_map]
  congr 1
  simp only [limit3, best_eq]
  rw [List.take_of_length_le (by rw [length_sortDesc]),
    List.take_of_length_le (by rw [length_sortDesc])]
  conv_lhs => rw [hfil, discovered3_filter, sortDesc_filter]
  rfl

/-- "abd" is met before "abc" is displaced. -/
example : "abd".toList ∉ demo3.vocabulary ∧
    (demo3.lookup mean1 id (.str "abd".toList) none).map (List.map Prod.fst) =
      .ok ["abcabxxbcabc".toList, "abc".toList] ∧
    ((demo3.addWord id (.str "abd".toList)).1.lookup mean1 id (.str "abd".toList) none).map
      (List.map Prod.fst) = .ok ["abd".toList, "abcabxxbcabc".toList, "abc".toList] := by
  decide +kernel

/-- **C225.** If the words of a list are divided over two lists and all three lookups succeed, the
scores of the whole list are the merge of those of the parts. -/
theorem C225_v3_merge (hcf : ∀ w, cf (cf w) = cf w) {u a b : V3} (hu : u.Reachable cf)
    (ha : a.Reachable cf) (hb : b.Reachable cf) (hna : a.nList = u.nList) (hnb : b.nList = u.nList)
    (hca : a.caseInsensitive = u.caseInsensitive) (hcb : b.caseInsensitive = u.caseInsensitive)
    (hp : u.vocabulary.Perm (a.vocabulary ++ b.vocabulary)) {agg : List ℚ → S} {word : PyVal}
    {k : ℤ} (hk : 0 < k) {ru ra rb : List (List Char × S × ℚ)}
    (hru : u.lookup agg cf word (some k) = .ok ru) (hra : a.lookup agg cf word (some k) = .ok ra)
    (hrb : b.lookup agg cf word (some k) = .ok rb) :
    ru.map (fun r => r.2.1) = best id k.toNat ((ra ++ rb).map (fun r => r.2.1)) := by
  have val : ∀ {s : V3} {r}, s.Reachable cf → s.lookup agg cf word (some k) = .ok r →
      ∃ w, word = .str w ∧ r.map (fun r => r.2.1) = best id k.toNat
        ((s.vocabulary.filter (fun v => Matches3 s.nList (s.fold cf w) v)).map
          (fun v => agg (scoreVec3 s.nList (s.fold cf w) v))) := by
    intro s r hs hr
    by_cases hc : ∀ w, word = .str w → w ≠ [] → ¬ Clean (s.fold cf w)
    · obtain ⟨⟨e, he⟩, -⟩ := V3.lookup_other (agg := agg) (st' := s) rfl (some k) hc
      rw [he] at hr; cases hr
    simp only [not_forall, not_not] at hc
    obtain ⟨w, rfl, hw, hq⟩ := hc
    refine ⟨w, rfl, ?_⟩
    rw [V3.lookup_exact (hs.inv hcf) agg hw rfl hq] at hr
    split at hr
    · cases hr
    split at hr
    · cases hr
    split at hr
    · cases hr
    injection hr with hr
    rw [← hr, List.map_map, ← best_perm ((discovered3_perm s.nList (s.fold cf w)
      (hs.inv hcf).nodupW).map _), best_map]
    simp only [limit3, if_pos hk]
    rfl
  obtain ⟨w, rfl, eu⟩ := val hu hru
  obtain ⟨w1, e1, ea⟩ := val ha hra
  obtain ⟨w2, e2, eb⟩ := val hb hrb
  injection e1 with e1
  injection e2 with e2
  subst e1 e2
  have fa : a.fold cf w = u.fold cf w := by unfold V3.fold; rw [hca]
  have fb : b.fold cf w = u.fold cf w := by unfold V3.fold; rw [hcb]
  rw [List.map_append, eu, ea, eb, best_merge, fa, fb, hna, hnb, ← List.map_append,
    ← List.filter_append]
  exact best_perm ((hp.filter _).map _)

example :
    let new : V3 := { nList := [2, 4], caseInsensitive := false, vocabulary := [],
                      vocabIndices := [], ngramIndices := [] }
    let a := new.addAll id [.str "abc".toList]
    let b := new.addAll id [.str "xyz".toList, .str "abcabxxbcabc".toList]
    demo3.vocabulary.Perm (a.vocabulary ++ b.vocabulary) ∧
    (demo3.lookup mean1 id (.str "abc".toList) (some 1)).map (List.map Prod.fst) =
      .ok ["abcabxxbcabc".toList] ∧
    (a.lookup mean1 id (.str "abc".toList) (some 1)).map (List.map Prod.fst) =
      .ok ["abc".toList] ∧
    (b.lookup mean1 id (.str "abc".toList) (some 1)).map (List.map Prod.fst) =
      .ok ["abcabxxbcabc".toList] := by
  decide +kernel

end Verif
