import Verif.Index.Model
import Verif.Core.Lemmas

/-!
# n-grams as produced by `get_n_grams`, located
-/

namespace Verif

open GramSpec

theorem numGrams_eq (w : List Char) (n : ℤ) (hn : 1 < n) : numGrams w.length n = countInt n w := by
  unfold numGrams countInt
  rw [if_pos hn]; ring

theorem getNGrams_eq_grams {w : List Char} {n : ℤ} (hn : 1 < n) :
    getNGrams w n = grams n.toNat w := by
  unfold getNGrams grams
  rw [if_pos hn]
  have h : ((pad w).length - n + 1 : ℤ).toNat = count n.toNat w := toNat_numGramsInt w n (by omega)
  rw [h]
  apply List.map_congr_left
  intro i _
  simp [pySlice, gramAt, pad_eq]

theorem getNGrams_one {w : List Char} {n : ℤ} (hn : n ≤ 1) :
    getNGrams w n = w.map (fun c => [c]) := by
  unfold getNGrams; rw [if_neg (by omega)]

theorem length_getNGrams {w : List Char} {n : ℤ} :
    (getNGrams w n).length = if 1 < n then (numGrams w.length n).toNat else w.length := by
  by_cases h : 1 < n
  · rw [if_pos h, getNGrams_eq_grams h, numGrams_eq _ _ h, grams, List.length_map,
      List.length_range, count_eq, countInt]
    omega
  · rw [if_neg h, getNGrams_one (by omega), List.length_map]

/-- Every n-gram has length exactly `n`. -/
theorem getNGrams_length {w : List Char} {n : ℤ} (hn : 0 < n) {g : List Char}
    (hg : g ∈ getNGrams w n) : (g.length : ℤ) = n := by
  by_cases h : 1 < n
  · rw [getNGrams_eq_grams h] at hg
    obtain ⟨i, hi, rfl⟩ := List.mem_map.1 hg
    rw [List.mem_range, count] at hi
    simp only [gramAt, List.length_take, List.length_drop]
    omega
  · rw [getNGrams_one (by omega)] at hg
    obtain ⟨c, _, rfl⟩ := List.mem_map.1 hg
    simp; omega

/-- n-grams with relative positions. -/
def locatedOf (gs : List (List Char)) : List (List Char × ℚ) :=
  gs.zipIdx.map (fun p => (p.1, relPos gs.length p.2))

theorem length_locatedOf (gs : List (List Char)) : (locatedOf gs).length = gs.length := by
  simp [locatedOf]

theorem map_fst_locatedOf (gs : List (List Char)) : (locatedOf gs).map Prod.fst = gs := by
  simp [locatedOf, Function.comp_def]

theorem gramSet_locatedOf (gs : List (List Char)) : gramSet (locatedOf gs) = gs.toFinset := by
  rw [gramSet, map_fst_locatedOf]

theorem unitLocated_locatedOf (gs : List (List Char)) : UnitLocated (locatedOf gs) := by
  intro p hp
  simp only [locatedOf, List.mem_map] at hp
  obtain ⟨⟨g, i⟩, hi, rfl⟩ := hp
  have : i < gs.length := by
    have := List.mem_zipIdx hi
    omega
  exact ⟨relPos_nonneg _ _, relPos_le_one this⟩

theorem length_locs_locatedOf (gs : List (List Char)) (g : List Char) :
    (Dict.locs (locatedOf gs) g).length = gs.count g := by
  conv_rhs => rw [← map_fst_locatedOf gs]
  rw [Dict.locs, List.length_map, List.count, List.countP_map, List.countP_eq_length_filter]
  congr 2
  funext p
  rw [Bool.eq_iff_iff]; simp

theorem located_eq_locatedOf {w : List Char} {n : ℤ} (hn : 1 < n) :
    locatedOf (getNGrams w n) = located n.toNat w := by
  rw [getNGrams_eq_grams hn]
  unfold locatedOf located grams
  rw [List.length_map, List.length_range]
  apply List.ext_getElem
  · simp
  · intro i h1 h2
    simp

theorem relPos_of_two_le {m i : ℕ} (h : 2 ≤ m) : relPos m i = (i : ℚ) / ((m : ℚ) - 1) := by
  unfold relPos
  rw [max_eq_right]
  have : (2 : ℚ) ≤ m := by exact_mod_cast h
  linarith

theorem addLocations_eq (gs : List (List Char)) :
    addLocations gs = Dict.group (locatedOf gs) := by
  unfold addLocations
  split
  · rename_i h
    unfold Dict.group locatedOf
    rw [List.foldl_map]
    apply List.foldl_ext
    intro d p _
    rw [relPos_of_two_le (by omega)]
  · rename_i h
    match gs, h with
    | [], _ => rfl
    | [g], _ =>
      simp [locatedOf, Dict.group, relPos]
    | _ :: _ :: _, h => simp at h

theorem foldlM_ok {α β : Type} {f : β → α → Except PyErr β} {g : β → α → β} (l : List α) (b : β)
    (h : ∀ b, ∀ a ∈ l, f b a = .ok (g b a)) : l.foldlM f b = .ok (l.foldl g b) := by
  induction l generalizing b with
  | nil => rfl
  | cons a l ih =>
    rw [List.foldlM_cons, h b a (by simp)]
    simp only [bind, Except.bind, List.foldl_cons]
    exact ih (g b a) (fun b a ha => h b a (by simp [ha]))

theorem queryLocations_eq (gs : List (List Char)) :
    queryLocations gs = if gs.length = 1 then .error .zeroDivisionError
      else .ok (Dict.group (locatedOf gs)) := by
  unfold queryLocations
  by_cases h1 : gs.length = 1
  · rw [if_pos h1]
    match gs, h1 with
    | [g], _ => rfl
  · rw [if_neg h1]
    rw [foldlM_ok (g := fun d p => Dict.appendTo d p.1 ((p.2 : ℚ) / ((gs.length : ℚ) - 1)))]
    · congr 1
      unfold Dict.group locatedOf
      rw [List.foldl_map]
      apply List.foldl_ext
      intro d p hp
      have : p.2 < gs.length := by
        have := List.mem_zipIdx (x := p.1) (i := p.2) hp
        omega
      rw [relPos_of_two_le (by omega)]
    · intro d p hp
      have h0 : ¬ ((gs.length : ℤ) - 1 = 0) := by omega
      rw [if_neg h0]

theorem keys_group_eq (gs : List (List Char)) (g : List Char) :
    g ∈ Dict.keys (Dict.group (locatedOf gs)) ↔ g ∈ gs := by
  rw [Dict.mem_keys_group, map_fst_locatedOf]

theorem counter_append_singleton {κ : Type} [DecidableEq κ] (xs : List κ) (x : κ) :
    counter (xs ++ [x]) = Dict.set (counter xs) x ((Dict.get? (counter xs) x).getD 0 + 1) := by
  simp [counter]

theorem get?_counter {κ : Type} [DecidableEq κ] (xs : List κ) (k : κ) :
    Dict.get? (counter xs) k = if k ∈ xs then some (xs.count k) else none := by
  induction xs using List.reverseRecOn with
  | nil => simp [counter]
  | append_singleton xs x ih =>
    rw [counter_append_singleton, Dict.get?_set]
    by_cases h : x = k
    · subst h
      rw [if_pos rfl, ih]
      by_cases h2 : x ∈ xs
      · simp [h2, List.count_append]
      · simp [h2, List.count_append, List.count_eq_zero_of_not_mem h2]
    · rw [if_neg h, ih]
      simp [Ne.symm h, List.count_append, h]

theorem nodup_keys_counter {κ : Type} [DecidableEq κ] (xs : List κ) :
    (Dict.keys (counter xs)).Nodup := by
  induction xs using List.reverseRecOn with
  | nil => simp [counter]
  | append_singleton xs x ih =>
    rw [counter_append_singleton]; exact Dict.nodup_keys_set ih _ _

theorem mem_keys_counter {κ : Type} [DecidableEq κ] {xs : List κ} {k : κ} :
    k ∈ Dict.keys (counter xs) ↔ k ∈ xs := by
  rw [Dict.mem_keys_iff]
  simp only [get?_counter]
  by_cases h : k ∈ xs <;> simp [h]

theorem counter_eq_map {κ : Type} [DecidableEq κ] (xs : List κ) :
    counter xs = (Dict.keys (counter xs)).map (fun k => (k, xs.count k)) := by
  have h : ∀ p ∈ counter xs, p = (p.1, xs.count p.1) := by
    rintro ⟨k, v⟩ hp
    have := Dict.get?_of_mem (nodup_keys_counter xs) hp
    rw [get?_counter] at this
    split at this
    · injection this with h; simp [h]
    · cases this
  conv_lhs => rw [← List.map_id (counter xs)]
  unfold Dict.keys
  rw [List.map_map]
  exact List.map_congr_left h

end Verif
