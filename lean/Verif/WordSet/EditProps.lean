import Verif.WordSet.Props
import Verif.Core.EditProps

/-!
# Property C171: misspelt queries of a word set
-/

namespace Verif

open GramSpec WordSetSpec EditSpec

variable {cf : List Char → List Char} {un : Option (List Char → Option (List Char))}

/-- Words few edits apart share an n-gram if they are long enough. -/
theorem shared_gram_of_locDist {n b : ℕ} {u v : List Char}
    (h : locDist (located n u) (located n v) ≤ b)
    (hl : b + 2 * n < u.length + v.length + 6) : ∃ g ∈ grams n u, g ∈ grams n v := by
  by_contra hc
  have h2 : locSim (located n u) (located n v) = 0 := by
    unfold locSim
    rw [show gramSet (located n u) ∩ gramSet (located n v) = ∅ from ?_, Finset.sum_empty]
    rw [Finset.eq_empty_iff_forall_notMem]
    intro g hg
    rw [Finset.mem_inter, gramSet_located, gramSet_located, List.mem_toFinset,
      List.mem_toFinset] at hg
    exact hc ⟨g, hg⟩
  unfold locDist at h
  rw [h2, length_located, length_located, sub_zero] at h
  have h3 : count n u + count n v ≤ b := by exact_mod_cast h
  rw [count_eq, count_eq] at h3
  omega

/-- Words few edits apart have a high score. -/
theorem score_of_locDist {ns : List ℕ} {b : ℕ → ℕ} {q w : List Char}
    (h : ∀ n ∈ ns, locDist (located n q) (located n w) ≤ b n) (ht : 0 < totalCount ns q w) :
    1 - ((ns.map b).sum : ℕ) / (totalCount ns q w : ℚ) ≤ score ns q w := by
  have key : ∀ l : List ℕ, (∀ n ∈ l, locDist (located n q) (located n w) ≤ b n) →
      (totalCount l q w : ℚ) - ((l.map b).sum : ℕ) ≤ (l.map fun n => simOf n q w).sum := by
    intro l hl
    induction l with
    | nil => simp [totalCount]
    | cons n l ih =>
      have h1 := ih (fun m hm => hl m (List.mem_cons_of_mem _ hm))
      have h2 := hl n (by simp)
      unfold locDist at h2
      rw [length_located, length_located, ← simOf_eq] at h2
      have e : totalCount (n :: l) q w = count n q + count n w + totalCount l q w := by
        simp [totalCount]
      rw [e, List.map_cons, List.sum_cons, List.map_cons, List.sum_cons]
      push_cast at h1 ⊢
      linarith
  have htq : (0 : ℚ) < totalCount ns q w := by exact_mod_cast ht
  unfold score
  rw [sub_le_iff_le_add, ← add_div, le_div_iff₀ htq]
  have := key ns h
  linarith

/-- A stored word that the filter lets through is returned, unless `k` words with at least its score
are returned instead. -/
theorem candidate_found {st : WS} (h : WSReachable cf un st) {q nq o ko : List Char} {k : ℤ}
    {ms : MinSim} (hk : 0 < k) (ha : ms.accepted = true) (hq : q ≠ [])
    (hnq : keyOf st.caseSensitive cf un q = some nq) (hne : nq ≠ []) (ho : o ∈ st.iter)
    (hko : keyOf st.caseSensitive cf un o = some ko) (hcand : Candidate st.sizes nq ko) :
    ∃ res, st.findSimilar cf un (.str q) (.int k) ms = .ok res ∧
      ((o, score st.sizes nq ko) ∈ res ∨
        ((res.length : ℤ) = k ∧ ∀ r ∈ res, score st.sizes nq ko ≤ r.2)) := by
  have hr := h.rep
  obtain ⟨R, hR, -, hres⟩ := C39_best_k_first h hk ha hq hnq hne
  rw [hr.iter] at ho
  obtain ⟨m, hm, rfl⟩ := List.mem_map.1 ho
  have hmk := (hr.keys m hm).1
  unfold WS.key at hmk
  rw [hko] at hmk
  injection hmk with hmk
  subst hmk
  refine ⟨_, hres, ?_⟩
  by_cases hmR : m ∈ R
  · exact Or.inl (List.mem_map.2 ⟨m, hmR, rfl⟩)
  · right
    constructor
    · rw [List.length_map, hR.length]
      have hsub : (m :: R).Subperm
          ((st.members cf un).filter fun m => Candidate st.sizes nq m.key) := by
        apply List.Nodup.subperm
        · refine List.nodup_cons.2 ⟨hmR, ?_⟩
          refine hR.ordered.imp ?_
          rintro a b hab rfl
          rcases hab with hab | hab
          · exact lt_irrefl _ hab
          · exact lt_irrefl _ hab.2
        · intro x hx
          rw [List.mem_filter]
          rcases List.mem_cons.1 hx with rfl | hx
          · exact ⟨hm, by simpa using hcand⟩
          · have := hR.members x hx
            exact ⟨this.1, by simpa using this.2⟩
      have := hsub.length_le
      have hlen := hR.length
      rw [List.length_cons] at this
      omega
    · intro r hr'
      obtain ⟨x, hx, rfl⟩ := List.mem_map.1 hr'
      rcases hR.best m hm hcand hmR x hx with h1 | h1
      · exact h1.le
      · exact h1.1.le

theorem typo_found_aux {st : WS} (h : WSReachable cf un st) {q nq o ko : List Char} {k : ℤ}
    {ms : MinSim} (hk : 0 < k) (ha : ms.accepted = true) (hq : q ≠ [])
    (hnq : keyOf st.caseSensitive cf un q = some nq) (hne : nq ≠ []) (ho : o ∈ st.iter)
    (hko : keyOf st.caseSensitive cf un o = some ko) {b : ℕ → ℕ}
    (hb : ∀ n, 1 ≤ n → locDist (located n nq) (located n ko) ≤ b n)
    (hl : match filterSize st.sizes with
      | some f => b f + 2 * f < nq.length + ko.length + 6
      | none => 0 < totalCount st.sizes nq ko) :
    ∃ res s, st.findSimilar cf un (.str q) (.int k) ms = .ok res ∧
      1 - ((st.sizes.map b).sum : ℕ) / (totalCount st.sizes nq ko : ℚ) ≤ s ∧
      ((o, s) ∈ res ∨ ((res.length : ℤ) = k ∧ ∀ r ∈ res, s ≤ r.2)) := by
  have hr := h.rep
  have hcand : Candidate st.sizes nq ko := by
    unfold Candidate
    cases hf : filterSize st.sizes with
    | none => rw [hf] at hl; exact hl
    | some f =>
      rw [hf] at hl
      exact shared_gram_of_locDist (hb f (hr.posSizes f (filterSize_mem hf))) hl
  obtain ⟨res, h1, h2⟩ := candidate_found h hk ha hq hnq hne ho hko hcand
  exact ⟨res, _, h1,
    score_of_locDist (fun n hn => hb n (hr.posSizes n hn)) (totalCount_pos_of_candidate hcand), h2⟩

/-- **C171.** A stored word is found by a query that is `e` edits away from it (after
normalisation), provided the two are long enough for the filter: the stored word is returned with a
score of at least `1 - (sum of 2 * e * n over the sizes n) / (number of n-grams of both words)`,
unless `k` words with at least its score are returned instead. -/
theorem C171_typo_found {st : WS} (h : WSReachable cf un st) {q nq o ko : List Char} {k : ℤ}
    {ms : MinSim} (hk : 0 < k) (ha : ms.accepted = true) (hq : q ≠ [])
    (hnq : keyOf st.caseSensitive cf un q = some nq) (hne : nq ≠ []) (ho : o ∈ st.iter)
    (hko : keyOf st.caseSensitive cf un o = some ko) {e : ℕ} (he : Steps OneEdit e nq ko)
    (hl : match filterSize st.sizes with
      | some f => 2 * e * f + 2 * f < nq.length + ko.length + 6
      | none => 0 < totalCount st.sizes nq ko) :
    ∃ res s, st.findSimilar cf un (.str q) (.int k) ms = .ok res ∧
      1 - ((st.sizes.map fun n => 2 * e * n).sum : ℕ) / (totalCount st.sizes nq ko : ℚ) ≤ s ∧
      ((o, s) ∈ res ∨ ((res.length : ℤ) = k ∧ ∀ r ∈ res, s ≤ r.2)) := by
  refine typo_found_aux h hk ha hq hnq hne ho hko (b := fun n => 2 * e * n) ?_ hl
  intro n hn
  refine (locDist_steps (fun u v => locDist_oneEdit hn) he).trans (le_of_eq ?_)
  push_cast; ring

example :
    let st := demoSet id true [2, 3, 4] ["stored".toList, "straight".toList, "other".toList]
    st.findSimilar id none (.str "storted".toList) (.int 2) .none =
      .ok [("stored".toList, 1421 / 2340), ("straight".toList, 67 / 504)] ∧
    filterSize st.sizes = some 3 ∧ 2 * 1 * 3 + 2 * 3 < 7 + 6 + 6 ∧
    Steps OneEdit 1 "storted".toList "stored".toList :=
  ⟨by decide +kernel, by decide +kernel, by decide,
    .step (.del "stor".toList 't' "ed".toList) (.zero _)⟩

/-- **C171.** The same with transpositions of adjacent characters counted as one edit; the number
of n-grams affected by an edit is then `n + 1`. -/
theorem C171_transposition_found {st : WS} (h : WSReachable cf un st) {q nq o ko : List Char}
    {k : ℤ} {ms : MinSim} (hk : 0 < k) (ha : ms.accepted = true) (hq : q ≠ [])
    (hnq : keyOf st.caseSensitive cf un q = some nq) (hne : nq ≠ []) (ho : o ∈ st.iter)
    (hko : keyOf st.caseSensitive cf un o = some ko) {e : ℕ} (he : Steps OneEditT e nq ko)
    (hl : match filterSize st.sizes with
      | some f => 2 * e * (f + 1) + 2 * f < nq.length + ko.length + 6
      | none => 0 < totalCount st.sizes nq ko) :
    ∃ res s, st.findSimilar cf un (.str q) (.int k) ms = .ok res ∧
      1 - ((st.sizes.map fun n => 2 * e * (n + 1)).sum : ℕ) / (totalCount st.sizes nq ko : ℚ) ≤ s ∧
      ((o, s) ∈ res ∨ ((res.length : ℤ) = k ∧ ∀ r ∈ res, s ≤ r.2)) := by
  refine typo_found_aux h hk ha hq hnq hne ho hko (b := fun n => 2 * e * (n + 1)) ?_ hl
  intro n hn
  refine (locDist_steps (fun u v => locDist_oneEditT hn) he).trans (le_of_eq ?_)
  push_cast; ring

example :
    let st := demoSet id true [2, 3, 4] ["stored".toList, "straight".toList, "other".toList]
    st.findSimilar id none (.str "sotred".toList) (.int 2) .none =
      .ok [("stored".toList, 7 / 18)] ∧
    2 * 1 * (3 + 1) + 2 * 3 < 6 + 6 + 6 ∧ Steps OneEditT 1 "sotred".toList "stored".toList :=
  ⟨by decide +kernel, by decide, .step (.swap "s".toList 'o' 't' "red".toList) (.zero _)⟩

/-- **C171.** The condition on the lengths is needed and exact for the default sizes: a word of
three letters is not found by a query that differs in one letter. -/
theorem C171_short_typo_missed :
    ∃ st : WS, WSReachable id none st ∧ "cat".toList ∈ st.iter ∧
      st.sizes = [2, 3, 4] ∧ Steps OneEdit 1 "cot".toList "cat".toList ∧
      st.findSimilar id none (.str "cot".toList) (.int 10) .none = .ok [] := by
  refine ⟨demoSet id true [2, 3, 4] ["cat".toList], demoSet_reachable (by decide +kernel) _,
    by decide +kernel, by decide +kernel, ?_, by decide +kernel⟩
  exact .step (.sub ['c'] 'o' 'a' ['t']) (.zero _)

end Verif
