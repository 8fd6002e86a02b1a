import Verif.Index.State
import Verif.Index.Spec

/-!
# Accumulating scores per word
-/

namespace Verif

open GramSpec IndexSpec

/-- An event adds `x` to component `k` of the row of word `oi`. -/
abbrev Event := ℕ × ℕ × ℚ

/-- Apply a list of events. -/
def accum (N : ℕ) (ms : Dict ℕ (List ℚ)) (ev : List Event) : Dict ℕ (List ℚ) :=
  ev.foldl (fun ms e => bump N ms e.1 e.2.1 e.2.2) ms

/-- Row of word `oi` after all events. -/
def evTotal (N : ℕ) (ev : List Event) (oi : ℕ) : List ℚ :=
  (List.range N).map (fun k =>
    (ev.map (fun e => if e.1 = oi ∧ e.2.1 = k then e.2.2 else 0)).sum)

theorem evTotal_of_notMem {N : ℕ} {ev : List Event} {oi : ℕ} (h : oi ∉ ev.map Prod.fst) :
    evTotal N ev oi = List.replicate N 0 := by
  unfold evTotal
  have : ∀ k, (ev.map (fun e => if e.1 = oi ∧ e.2.1 = k then e.2.2 else 0)).sum = 0 := by
    intro k
    apply List.sum_eq_zero
    intro x hx
    obtain ⟨e, he, rfl⟩ := List.mem_map.1 hx
    rw [if_neg]
    rintro ⟨h1, _⟩
    exact h (List.mem_map.2 ⟨e, he, h1⟩)
  simp [this]

theorem accum_append_singleton (N : ℕ) (ms : Dict ℕ (List ℚ)) (ev : List Event) (e : Event) :
    accum N ms (ev ++ [e]) = bump N (accum N ms ev) e.1 e.2.1 e.2.2 := by
  simp [accum]

theorem get?_accum (N : ℕ) (ev : List Event) (oi : ℕ) :
    Dict.get? (accum N [] ev) oi =
      if oi ∈ ev.map Prod.fst then some (evTotal N ev oi) else none := by
  induction ev using List.reverseRecOn with
  | nil => simp [accum]
  | append_singleton ev e ih =>
    obtain ⟨o, k, x⟩ := e
    rw [accum_append_singleton, bump, Dict.get?_set]
    by_cases h : o = oi
    · subst h
      have hv : (Dict.get? (accum N [] ev) o).getD (List.replicate N 0) = evTotal N ev o := by
        rw [ih]
        by_cases h2 : o ∈ ev.map Prod.fst
        · simp only [if_pos h2, Option.getD_some]
        · simp only [if_neg h2, Option.getD_none, evTotal_of_notMem h2]
      simp only [if_true, hv]
      rw [if_pos (by simp)]
      congr 1
      apply List.ext_getElem
      · simp [evTotal]
      · intro i h1 h2
        have hi : i < N := by simpa [evTotal] using h2
        simp only [evTotal, List.getElem_set, List.getElem_map, List.getElem_range, List.map_append,
          List.sum_append, List.map_cons, List.map_nil, List.sum_singleton, true_and]
        by_cases hk : k = i
        · subst hk
          simp [hi]
        · simp [hk]
    · rw [if_neg h, ih]
      have e1 : evTotal N (ev ++ [(o, k, x)]) oi = evTotal N ev oi := by
        simp [evTotal, h]
      rw [e1]
      have e2 : oi ∈ (ev ++ [(o, k, x)]).map Prod.fst ↔ oi ∈ ev.map Prod.fst := by
        rw [List.map_append, List.mem_append]
        simp [Ne.symm h]
      by_cases h2 : oi ∈ ev.map Prod.fst
      · rw [if_pos h2, if_pos (e2.2 h2)]
      · rw [if_neg h2, if_neg (fun h' => h2 (e2.1 h'))]

theorem nodup_keys_accum (N : ℕ) (ev : List Event) : (Dict.keys (accum N [] ev)).Nodup := by
  induction ev using List.reverseRecOn with
  | nil => simp [accum]
  | append_singleton ev e ih =>
    rw [accum_append_singleton]; exact Dict.nodup_keys_set ih _ _

theorem foldlM_flatMap_ok {α β ε : Type} {f : β → α → Except PyErr β} {g : β → ε → β}
    {ev : α → List ε} (l : List α) (b : β)
    (h : ∀ a ∈ l, ∀ b, f b a = .ok ((ev a).foldl g b)) :
    l.foldlM f b = .ok ((l.flatMap ev).foldl g b) := by
  induction l generalizing b with
  | nil => rfl
  | cons a l ih =>
    rw [List.foldlM_cons, h a (by simp)]
    simp only [bind, Except.bind, List.flatMap_cons, List.foldl_append]
    exact ih _ (fun a ha => h a (by simp [ha]))

theorem sum_map_flatMap {α β : Type} (l : List α) (f : α → List β) (h : β → ℚ) :
    ((l.flatMap f).map h).sum = (l.map (fun a => ((f a).map h).sum)).sum := by
  induction l with
  | nil => rfl
  | cons a l ih => simp [List.flatMap_cons, ih]

theorem sum_zipIdx_single {α : Type} (l : List α) (F : α → ℚ) (k : ℕ) (hk : k < l.length) :
    (l.zipIdx.map (fun p => if p.2 = k then F p.1 else 0)).sum = F l[k] := by
  induction l using List.reverseRecOn with
  | nil => simp at hk
  | append_singleton l a ih =>
    rw [List.zipIdx_append, List.map_append, List.sum_append]
    simp only [List.zipIdx_cons, List.zipIdx_nil, List.map_cons, List.map_nil, List.sum_singleton,
      zero_add]
    by_cases h : k < l.length
    · rw [ih h, if_neg (by omega), add_zero, List.getElem_append_left h]
    · have hk' : k = l.length := by simp at hk; omega
      subst hk'
      have h0 : (l.zipIdx.map (fun p => if p.2 = l.length then F p.1 else 0)).sum = 0 := by
        apply List.sum_eq_zero
        intro x hx
        obtain ⟨⟨a', i⟩, hi, rfl⟩ := List.mem_map.1 hx
        have := List.mem_zipIdx hi
        rw [if_neg]
        simp only; omega
      rw [h0]; simp

/-- Sum over the entries of `g` of a function vanishing off word `oi`. -/
theorem sum_posEntries {ns : List ℤ} {ws : List (List Char)} {g w : List Char} {oi : ℕ}
    (hw : ws[oi]? = some w) (F : ℕ × List ℚ → ℚ) (hF : ∀ e, e.1 ≠ oi → F e = 0) :
    ((posEntries ns ws g).map F).sum =
      match posEntry ns g w oi with
      | some e => F e
      | none => 0 := by
  have hidx : ∀ (v : List Char) (i : ℕ) e, posEntry ns g v i = some e → e.1 = i := by
    intro v i e he
    unfold posEntry at he
    split at he
    · injection he with he; rw [← he]
    · cases he
  induction ws using List.reverseRecOn with
  | nil => simp at hw
  | append_singleton ws v ih =>
    rw [posEntries_append, List.map_append, List.sum_append]
    by_cases h : oi < ws.length
    · rw [List.getElem?_append_left h] at hw
      rw [ih hw]
      have h0 : ((posEntry ns g v ws.length).toList.map F).sum = 0 := by
        cases hp : posEntry ns g v ws.length with
        | none => rfl
        | some e =>
          have := hidx _ _ _ hp
          simp only [Option.toList_some, List.map_cons, List.map_nil, List.sum_singleton]
          exact hF e (by omega)
      rw [h0, add_zero]
    · have hoi : oi = ws.length := by
        have := (List.getElem?_eq_some_iff.1 hw).1
        simp at this; omega
      subst hoi
      have hv : v = w := by simpa using hw
      subst hv
      have h0 : ((posEntries ns ws g).map F).sum = 0 := by
        apply List.sum_eq_zero
        intro x hx
        obtain ⟨e, he, rfl⟩ := List.mem_map.1 hx
        unfold posEntries at he
        obtain ⟨⟨u, i⟩, hi, he⟩ := List.mem_filterMap.1 he
        have h1 := List.mem_zipIdx hi
        have h2 := hidx _ _ _ he
        apply hF; simp only at h2; omega
      rw [h0, zero_add]
      cases posEntry ns g v ws.length <;> simp

theorem mem_posEntries {ns : List ℤ} {ws : List (List Char)} {g : List Char} {e : ℕ × List ℚ} :
    e ∈ posEntries ns ws g ↔
      ∃ w, ws[e.1]? = some w ∧ posEntry ns g w e.1 = some e := by
  unfold posEntries
  rw [List.mem_filterMap]
  constructor
  · rintro ⟨⟨w, i⟩, hi, he⟩
    have h1 : e.1 = i := by
      simp only at he
      unfold posEntry at he
      split at he
      · injection he with he; rw [← he]
      · cases he
    subst h1
    exact ⟨w, List.mem_zipIdx_iff_getElem?.1 hi, he⟩
  · rintro ⟨w, hw, he⟩
    exact ⟨(w, e.1), List.mem_zipIdx_iff_getElem?.2 hw, he⟩

theorem getNGrams_eq_gramsOf (w : List Char) (n : ℤ) : getNGrams w n = gramsOf n w := by
  unfold gramsOf
  split
  · rename_i h; exact getNGrams_eq_grams h
  · rename_i h; exact getNGrams_one (by omega)

theorem posOf_eq (gs : List (List Char)) (g : List Char) :
    posOf gs g = Dict.locs (locatedOf gs) g := by
  simp only [posOf, Dict.locs, locatedOf, List.filter_map, List.map_map]
  rfl

theorem simN_eq (n : ℤ) (q w : List Char) :
    simN n q w = locSim (locatedOf (gramsOf n q)) (locatedOf (gramsOf n w)) := by
  unfold simN locSim
  rw [gramSet_locatedOf, gramSet_locatedOf]
  apply Finset.sum_congr rfl
  intro g _
  rw [contrib, length_locs_locatedOf, length_locs_locatedOf, posOf_eq, posOf_eq]

theorem denom_eq (n : ℤ) (q w : List Char) :
    denom n q w = numGrams q.length n + numGrams w.length n := by
  unfold denom numGrams; split <;> ring

theorem commonN_nonneg (n : ℤ) (q w : List Char) : 0 ≤ commonN n q w :=
  Finset.sum_nonneg (fun _ _ => Nat.cast_nonneg _)

theorem commonN_le_simN (n : ℤ) (q w : List Char) : commonN n q w ≤ simN n q w := by
  rw [simN_eq]
  unfold commonN locSim
  rw [gramSet_locatedOf, gramSet_locatedOf]
  apply Finset.sum_le_sum
  intro g _
  have := min_le_contrib (spread1_of_unit (unitLocated_locatedOf (gramsOf n q))
    (unitLocated_locatedOf (gramsOf n w)) g)
  rw [length_locs_locatedOf, length_locs_locatedOf] at this
  push_cast
  exact this

theorem simN_le_two_commonN (n : ℤ) (q w : List Char) : simN n q w ≤ commonN n q w * 2 := by
  rw [simN_eq]
  unfold commonN locSim
  rw [gramSet_locatedOf, gramSet_locatedOf, Finset.sum_mul]
  apply Finset.sum_le_sum
  intro g _
  have := contrib_le_two_min (Dict.locs (locatedOf (gramsOf n q)) g)
    (Dict.locs (locatedOf (gramsOf n w)) g)
  rw [length_locs_locatedOf, length_locs_locatedOf] at this
  push_cast
  linarith

theorem not_shares_sums {n : ℤ} {q w : List Char} (h : ¬ Shares n q w) :
    commonN n q w = 0 ∧ simN n q w = 0 := by
  have he : (gramsOf n q).toFinset ∩ (gramsOf n w).toFinset = ∅ := by
    rw [Finset.eq_empty_iff_forall_notMem]
    intro g hg
    rw [Finset.mem_inter, List.mem_toFinset, List.mem_toFinset] at hg
    exact h ⟨g, hg⟩
  unfold commonN simN
  rw [he]; simp

theorem length_gramsOf (n : ℤ) (w : List Char) :
    (gramsOf n w).length = if 1 < n then (numGrams w.length n).toNat else w.length := by
  rw [← getNGrams_eq_gramsOf, length_getNGrams]

theorem denom_pos_of_shares {n : ℤ} {q w : List Char} (h : Shares n q w) : 0 < denom n q w := by
  obtain ⟨g, h1, h2⟩ := h
  have l1 := List.length_pos_of_mem h1
  have l2 := List.length_pos_of_mem h2
  rw [length_gramsOf] at l1 l2
  rw [denom_eq]
  by_cases h : 1 < n
  · rw [if_pos h] at l1 l2; omega
  · rw [if_neg h] at l1 l2
    unfold numGrams; rw [if_neg (by omega)]; rw [if_neg (by omega)]; omega

end Verif
