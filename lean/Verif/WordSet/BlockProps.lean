import Verif.WordSet.EditProps
import Verif.Core.OverlapProps

/-!
# Property C212: word sets and common n-grams
-/

namespace Verif

open GramSpec WordSetSpec

variable {cf : List Char → List Char} {un : Option (List Char → Option (List Char))}

namespace WordSetSpec

/-- Number of n-grams in common, over all sizes. -/
def commonTotal (ns : List ℕ) (q w : List Char) : ℕ := (ns.map fun n => common n q w).sum

end WordSetSpec

theorem sum_simOf_bounds (ns : List ℕ) (q w : List Char) :
    (commonTotal ns q w : ℚ) ≤ (ns.map fun n => simOf n q w).sum ∧
      (ns.map fun n => simOf n q w).sum ≤ 2 * commonTotal ns q w := by
  unfold commonTotal
  induction ns with
  | nil => simp
  | cons n ns ih =>
    have h1 := common_le_locSim n q w
    have h2 := locSim_le_common n q w
    rw [← simOf_eq] at h1 h2
    simp only [List.map_cons, List.sum_cons, Nat.cast_add]
    constructor <;> linarith [ih.1, ih.2]

theorem score_dice (ns : List ℕ) (q w : List Char) :
    (commonTotal ns q w : ℚ) / totalCount ns q w ≤ score ns q w ∧
      score ns q w ≤ 2 * commonTotal ns q w / totalCount ns q w := by
  obtain ⟨h1, h2⟩ := sum_simOf_bounds ns q w
  unfold score
  exact ⟨div_le_div_of_nonneg_right h1 (Nat.cast_nonneg _),
    div_le_div_of_nonneg_right h2 (Nat.cast_nonneg _)⟩

/-- **C212.** Every score that `find_similar` returns lies between half the Dice coefficient of the
n-grams of query and word (over all sizes together) and the Dice coefficient. -/
theorem C212_score_dice {st : WS} (h : WSReachable cf un st) {q nq : List Char} {k : ℤ}
    {ms : MinSim} (hnq : keyOf st.caseSensitive cf un q = some nq)
    {res : List (List Char × ℚ)} (hres : st.findSimilar cf un (.str q) (.int k) ms = .ok res) :
    ∀ r ∈ res, ∃ ko, keyOf st.caseSensitive cf un r.1 = some ko ∧
      (commonTotal st.sizes nq ko : ℚ) / totalCount st.sizes nq ko ≤ r.2 ∧
      r.2 ≤ 2 * commonTotal st.sizes nq ko / totalCount st.sizes nq ko := by
  intro r hr
  have hk : 0 < k := by
    by_contra hc
    unfold WS.findSimilar at hres
    simp only at hres
    rw [if_pos (by omega)] at hres
    cases hres
  have ha : ms.accepted = true := by
    by_contra hc
    have hc : ms.accepted = false := by simpa using hc
    unfold WS.findSimilar at hres
    simp only at hres
    rw [if_neg (by omega), hc] at hres
    cases hres
  have hq : q ≠ [] := by
    rintro rfl
    unfold WS.findSimilar at hres
    simp only at hres
    rw [if_neg (by omega), ha] at hres
    simp only [true_or, if_true] at hres
    injection hres with hres
    subst hres
    cases hr
  by_cases hne : nq = []
  · exfalso
    subst hne
    unfold WS.findSimilar at hres
    simp only at hres
    rw [if_neg (by omega), ha] at hres
    simp only [normalizeWord_eq, hnq] at hres
    split at hres
    · injection hres with hres; subst hres; cases hr
    · simp at hres; subst hres; cases hr
  obtain ⟨R, hR, -, hv⟩ := C39_best_k_first h hk ha hq hnq hne
  rw [hv] at hres
  injection hres with hres
  subst hres
  obtain ⟨m, hm, rfl⟩ := List.mem_map.1 hr
  exact ⟨m.key, (h.rep.keys m (hR.members m hm).1).1, score_dice _ _ _⟩

example :
    let st := demoSet id true [2, 3, 4] ["stored".toList, "straight".toList, "other".toList]
    st.findSimilar id none (.str "storted".toList) (.int 2) .none =
      .ok [("stored".toList, 1421 / 2340), ("straight".toList, 67 / 504)] ∧
    commonTotal st.sizes "storted".toList "stored".toList = 12 ∧
    totalCount st.sizes "storted".toList "stored".toList = 39 := by
  decide +kernel

/-- **C212.** A stored word that has a block of `L` characters in common with the query, where `L` is
at least the filter size, is found, wherever the block is: it is returned with a score of at least
the sum of `L + 1 - n` over the sizes `n ≤ L`, divided by the number of n-grams of both words,
unless `k` words with at least its score are returned instead. -/
theorem C212_block_found {st : WS} (h : WSReachable cf un st) {q nq o ko x : List Char} {k : ℤ}
    {ms : MinSim} (hk : 0 < k) (ha : ms.accepted = true) (hq : q ≠ [])
    (hnq : keyOf st.caseSensitive cf un q = some nq) (hne : nq ≠ []) (ho : o ∈ st.iter)
    (hko : keyOf st.caseSensitive cf un o = some ko) (hxq : x <:+: nq) (hxo : x <:+: ko)
    (hl : match filterSize st.sizes with
      | some f => f ≤ x.length
      | none => 0 < totalCount st.sizes nq ko) :
    ∃ res s, st.findSimilar cf un (.str q) (.int k) ms = .ok res ∧
      ((st.sizes.map fun n => x.length + 1 - n).sum : ℕ) / (totalCount st.sizes nq ko : ℚ) ≤ s ∧
      ((o, s) ∈ res ∨ ((res.length : ℤ) = k ∧ ∀ r ∈ res, s ≤ r.2)) := by
  have hc : ∀ n, x.length + 1 - n ≤ common n nq ko := fun n =>
    block_le_common (infix_bracketed hxq) (infix_bracketed hxo)
  have hcand : Candidate st.sizes nq ko := by
    unfold Candidate
    cases hf : filterSize st.sizes with
    | none => rw [hf] at hl; exact hl
    | some f =>
      rw [hf] at hl
      have h1 : 0 < common f nq ko := lt_of_lt_of_le (by simp only at hl; omega) (hc f)
      obtain ⟨g, hg⟩ := Multiset.card_pos_iff_exists_mem.1 h1
      rw [Multiset.mem_inter] at hg
      exact ⟨g, hg.1, hg.2⟩
  obtain ⟨res, h1, h2⟩ := candidate_found h hk ha hq hnq hne ho hko hcand
  refine ⟨res, _, h1, le_trans ?_ (score_dice _ _ _).1, h2⟩
  apply div_le_div_of_nonneg_right _ (Nat.cast_nonneg _)
  have : (st.sizes.map fun n => x.length + 1 - n).sum ≤ commonTotal st.sizes nq ko :=
    List.sum_le_sum fun n _ => hc n
  exact_mod_cast this

example :
    let st := demoSet id true [2, 3, 4] ["smartphone".toList, "notebook".toList]
    st.findSimilar id none (.str "phonebook".toList) (.int 2) .none =
      .ok [("notebook".toList, 1492 / 3213), ("smartphone".toList, 6719 / 28728)] ∧
    filterSize st.sizes = some 3 ∧ 3 ≤ "phone".toList.length ∧
    "phone".toList <:+: "phonebook".toList ∧ "phone".toList <:+: "smartphone".toList := by
  decide +kernel

end Verif
