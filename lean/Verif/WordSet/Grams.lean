import Verif.WordSet.Model
import Verif.WordSet.Spec
import Verif.Core.Lemmas

/-!
# n-grams and scores of `WordSet`
-/

namespace Verif

open GramSpec WordSetSpec

theorem wsGrams_eq {n : ℤ} (hn : 0 < n) (w : List Char) : wsGrams w n = grams n.toNat w := by
  unfold wsGrams
  rw [if_neg (by omega)]
  have hl : (pad w).length = w.length + 2 := by rw [pad_eq, length_bracketed]
  simp only [hl]
  split
  · have : count n.toNat w = 0 := by rw [count_eq]; omega
    simp [grams, this]
  · have : ((w.length + 2 : ℕ) - n + 1 : ℤ).toNat = count n.toNat w := by rw [count_eq]; omega
    rw [this]
    unfold grams
    apply List.map_congr_left
    intro i _
    simp [pySlice, gramAt, pad_eq]

theorem wsNumGrams_eq {n : ℤ} (hn : 0 < n) (w : List Char) :
    wsNumGrams w.length n = count n.toNat w := by
  unfold wsNumGrams
  rw [if_neg (by omega), count_eq]
  omega

theorem length_grams (n : ℕ) (w : List Char) : (grams n w).length = count n w := by simp [grams]

theorem wsAddPositions_eq {n : ℤ} (hn : 0 < n) (w : List Char) (L : List (List Char × ℚ)) :
    wsAddPositions w (Dict.group L) n = Dict.group (L ++ located n.toNat w) := by
  unfold wsAddPositions
  rw [wsGrams_eq hn]
  simp only [length_grams]
  have hz : ∀ (m : ℕ) (f : ℕ → List Char),
      ((List.range m).map f).zipIdx = (List.range m).map (fun i => (f i, i)) := by
    intro m f
    apply List.ext_getElem
    · simp
    · intro i h1 h2
      simp
  split
  · rename_i hc
    unfold grams
    rw [hz, List.foldl_map]
    unfold Dict.group located
    rw [List.foldl_append, List.foldl_map]
    apply List.foldl_ext
    intro d i _
    congr 1
    unfold relPos
    congr 1
    rcases Nat.lt_or_ge 1 (count n.toNat w) with h | h
    · rw [max_eq_right (by omega), max_eq_right]
      · push_cast; ring
      · have : (2 : ℚ) ≤ count n.toNat w := by exact_mod_cast h
        linarith
    · have : count n.toNat w = 1 := by omega
      rw [this]; simp
  · rename_i hc
    have : count n.toNat w = 0 := by omega
    simp [located, this]

/-- All located n-grams of a word. -/
def allLocated (ns : List ℕ) (w : List Char) : List (List Char × ℚ) :=
  ns.flatMap (fun n => located n w)

theorem ngramsPos_eq {ns : List ℤ} (hns : ∀ n ∈ ns, 0 < n) (w : List Char) :
    ns.foldl (wsAddPositions w) [] = Dict.group (allLocated (ns.map Int.toNat) w) := by
  have key : ∀ (ns : List ℤ), (∀ n ∈ ns, 0 < n) → ∀ L : List (List Char × ℚ),
      ns.foldl (wsAddPositions w) (Dict.group L) =
        Dict.group (L ++ allLocated (ns.map Int.toNat) w) := by
    intro ns
    induction ns with
    | nil => intro _ L; simp [allLocated]
    | cons n ns ih =>
      intro h L
      rw [List.foldl_cons, wsAddPositions_eq (h n List.mem_cons_self),
        ih (fun m hm => h m (List.mem_cons_of_mem _ hm))]
      simp [allLocated, List.append_assoc]
  exact key ns hns []

theorem length_allLocated (ns : List ℕ) (w : List Char) :
    (allLocated ns w).length = (ns.map (fun n => count n w)).sum := by
  unfold allLocated
  rw [List.length_flatMap]
  simp only [length_located]

theorem pyKey_group {L : List (List Char × ℚ)} {g : List Char} (h : g ∈ L.map Prod.fst) :
    pyKey (Dict.group L) g = .ok (Dict.locs L g) := by
  unfold pyKey
  rw [Dict.get?_group, if_pos h]

theorem foldlM_pure_sum (v : List Char → ℚ) (l : List (List Char))
    (step : ℚ → List Char → Except PyErr ℚ) (hf : ∀ s, ∀ g ∈ l, step s g = .ok (s + v g)) (s : ℚ) :
    l.foldlM step s = .ok (s + (l.map v).sum) := by
  induction l generalizing s with
  | nil => simp [pure, Except.pure]
  | cons g l ih =>
    rw [List.foldlM_cons, hf s g List.mem_cons_self]
    simp only [bind, Except.bind]
    rw [ih (fun s g hg => hf s g (List.mem_cons_of_mem _ hg)), List.map_cons, List.sum_cons,
      add_assoc]

theorem length_group_keys (L : List (List Char × ℚ)) :
    (Dict.keys (Dict.group L)).toFinset = gramSet L := by
  ext g
  rw [List.mem_toFinset, Dict.mem_keys_group, mem_gramSet]

theorem wsSimilarity_group (A B : List (List Char × ℚ)) :
    wsSimilarity (Dict.group A) (Dict.group B) = .ok (locSim A B) := by
  unfold wsSimilarity
  by_cases hc : (Dict.group A).length ≤ (Dict.group B).length
  · simp only [if_pos hc]
    rw [foldlM_pure_sum (fun g => contrib (Dict.locs A g) (Dict.locs B g))]
    · rw [zero_add, locSim_eq_sum (Finset.inter_subset_left), ← length_group_keys A,
        List.sum_toFinset _ (Dict.nodup_keys_group A)]
    · intro s g hg
      rw [Dict.mem_keys_group] at hg
      by_cases hb : g ∈ B.map Prod.fst
      · rw [if_pos (by rw [Dict.has_iff, Dict.mem_keys_group]; exact hb), pyKey_group hg,
          pyKey_group hb]
        rfl
      · rw [if_neg (by rw [Dict.has_iff, Dict.mem_keys_group]; exact hb),
          Dict.locs_eq_nil.2 hb]
        simp [pure, Except.pure]
  · simp only [if_neg hc]
    rw [foldlM_pure_sum (fun g => contrib (Dict.locs A g) (Dict.locs B g))]
    · rw [zero_add, locSim_eq_sum (Finset.inter_subset_right), ← length_group_keys B,
        List.sum_toFinset _ (Dict.nodup_keys_group B)]
    · intro s g hg
      rw [Dict.mem_keys_group] at hg
      by_cases hb : g ∈ A.map Prod.fst
      · rw [if_pos (by rw [Dict.has_iff, Dict.mem_keys_group]; exact hb), pyKey_group hg,
          pyKey_group hb]
        rfl
      · rw [if_neg (by rw [Dict.has_iff, Dict.mem_keys_group]; exact hb),
          Dict.locs_eq_nil.2 hb]
        simp [pure, Except.pure]

/-! ### Sizes do not interfere -/

theorem length_of_mem_grams {n : ℕ} {w g : List Char} (h : g ∈ grams n w) : g.length = n := by
  unfold grams at h
  obtain ⟨i, hi, rfl⟩ := List.mem_map.1 h
  rw [List.mem_range] at hi
  unfold count at hi
  simp only [gramAt, List.length_take, List.length_drop]
  omega

theorem mem_gramSet_allLocated {ns : List ℕ} {w g : List Char} :
    g ∈ gramSet (allLocated ns w) ↔ ∃ n ∈ ns, g ∈ grams n w := by
  rw [mem_gramSet]
  unfold allLocated
  rw [List.map_flatMap, List.mem_flatMap]
  constructor
  · rintro ⟨n, hn, h⟩
    rw [← mem_gramSet, gramSet_located, List.mem_toFinset] at h
    exact ⟨n, hn, h⟩
  · rintro ⟨n, hn, h⟩
    exact ⟨n, hn, by rw [← mem_gramSet, gramSet_located, List.mem_toFinset]; exact h⟩

theorem locSim_append {A B A' B' : List (List Char × ℚ)}
    (h1 : Disjoint (gramSet A) (gramSet B')) (h2 : Disjoint (gramSet A') (gramSet B))
    (h3 : Disjoint (gramSet A) (gramSet B)) (h4 : Disjoint (gramSet A') (gramSet B')) :
    locSim (A ++ B) (A' ++ B') = locSim A A' + locSim B B' := by
  have e : ∀ X Y : List (List Char × ℚ), gramSet (X ++ Y) = gramSet X ∪ gramSet Y := by
    intro X Y; ext g; simp [gramSet]
  have hU : ∀ X ⊆ (gramSet A ∪ gramSet A') ∪ (gramSet B ∪ gramSet B'),
    X ⊆ (gramSet A ∪ gramSet A') ∪ (gramSet B ∪ gramSet B') := fun _ h => h
  have hd : Disjoint (gramSet A ∪ gramSet A') (gramSet B ∪ gramSet B') := by
    rw [Finset.disjoint_union_left, Finset.disjoint_union_right, Finset.disjoint_union_right]
    exact ⟨⟨h3, h1⟩, ⟨h2, h4⟩⟩
  rw [locSim_eq_sum (U := (gramSet A ∪ gramSet A') ∪ (gramSet B ∪ gramSet B'))]
  · rw [Finset.sum_union hd]
    congr 1
    · rw [locSim_eq_sum (U := gramSet A ∪ gramSet A')
        (fun g hg => Finset.mem_union_left _ (Finset.mem_inter.1 hg).1)]
      apply Finset.sum_congr rfl
      intro g hg
      have hn := Finset.disjoint_left.1 hd hg
      rw [Finset.mem_union, not_or] at hn
      rw [Dict.locs_append, Dict.locs_append, locs_nil_of_notMem hn.1, locs_nil_of_notMem hn.2,
        List.append_nil, List.append_nil]
    · rw [locSim_eq_sum (U := gramSet B ∪ gramSet B')
        (fun g hg => Finset.mem_union_left _ (Finset.mem_inter.1 hg).1)]
      apply Finset.sum_congr rfl
      intro g hg
      have hn := Finset.disjoint_right.1 hd hg
      rw [Finset.mem_union, not_or] at hn
      rw [Dict.locs_append, Dict.locs_append, locs_nil_of_notMem hn.1, locs_nil_of_notMem hn.2,
        List.nil_append, List.nil_append]
  · intro g hg
    rw [e, e, Finset.mem_inter, Finset.mem_union, Finset.mem_union] at hg
    simp only [Finset.mem_union]
    tauto

theorem simOf_eq (n : ℕ) (q w : List Char) : simOf n q w = locSim (located n q) (located n w) := by
  unfold simOf locSim
  rw [gramSet_located, gramSet_located]
  apply Finset.sum_congr rfl
  intro g _
  rw [locs_located, locs_located]; rfl

theorem locSim_allLocated {ns : List ℕ} (hn : ns.Nodup) (q w : List Char) :
    locSim (allLocated ns q) (allLocated ns w) = (ns.map (fun n => simOf n q w)).sum := by
  induction ns with
  | nil => simp [allLocated, locSim, gramSet]
  | cons n ns ih =>
    rw [List.nodup_cons] at hn
    have hd : ∀ u v : List Char, Disjoint (gramSet (located n u)) (gramSet (allLocated ns v)) := by
      intro u v
      rw [Finset.disjoint_left]
      intro g h1 h2
      rw [gramSet_located, List.mem_toFinset] at h1
      obtain ⟨m, hm, h2⟩ := mem_gramSet_allLocated.1 h2
      have := length_of_mem_grams h1
      have := length_of_mem_grams h2
      exact hn.1 (by rw [show n = m by omega]; exact hm)
    have ha : ∀ u, allLocated (n :: ns) u = located n u ++ allLocated ns u := by
      intro u; simp [allLocated]
    rw [ha, ha, locSim_append (hd _ _) (hd _ _) (hd _ _) (hd _ _), ih hn.2, List.map_cons,
      List.sum_cons, simOf_eq]

theorem totalCount_eq (ns : List ℕ) (q w : List Char) :
    totalCount ns q w = (allLocated ns q).length + (allLocated ns w).length := by
  rw [length_allLocated, length_allLocated]
  unfold totalCount
  rw [List.sum_map_add]

/-! ### Facts about scores -/

theorem score_eq {ns : List ℕ} (hn : ns.Nodup) (q w : List Char) :
    score ns q w = locSim (allLocated ns q) (allLocated ns w) / (totalCount ns q w : ℚ) := by
  unfold score; rw [locSim_allLocated hn]

theorem score_nonneg {ns : List ℕ} (hn : ns.Nodup) (q w : List Char) : 0 ≤ score ns q w := by
  rw [score_eq hn]
  exact div_nonneg (locSim_nonneg _ _) (Nat.cast_nonneg _)

theorem score_le_one {ns : List ℕ} (hn : ns.Nodup) (q w : List Char) : score ns q w ≤ 1 := by
  rw [score_eq hn]
  apply div_le_one_of_le₀ _ (Nat.cast_nonneg _)
  rw [totalCount_eq]
  push_cast
  exact locSim_le_add _ _

theorem allLocated_perm_located {ns : List ℕ} (hnd : ns.Nodup) {n : ℕ} (hn : n ∈ ns)
    (w : List Char) : (allLocated ns w).filter (fun p => p.1.length = n) = located n w := by
  have hall : ∀ m, (located m w).filter (fun p => p.1.length = n) =
      if m = n then located m w else [] := by
    intro m
    have hl : ∀ p ∈ located m w, p.1.length = m := by
      intro p hp
      apply length_of_mem_grams (w := w)
      have : p.1 ∈ gramSet (located m w) := mem_gramSet.2 (List.mem_map.2 ⟨p, hp, rfl⟩)
      rwa [gramSet_located, List.mem_toFinset] at this
    split
    · rename_i h
      rw [List.filter_eq_self]
      intro p hp; simp [hl p hp, h]
    · rename_i h
      rw [List.filter_eq_nil_iff]
      intro p hp; simp [hl p hp, h]
  unfold allLocated
  induction ns with
  | nil => simp at hn
  | cons m ns ih =>
    rw [List.nodup_cons] at hnd
    rw [List.flatMap_cons, List.filter_append, hall]
    rcases List.mem_cons.1 hn with rfl | hn
    · rw [if_pos rfl]
      have : (ns.flatMap (fun m => located m w)).filter (fun p => p.1.length = n) = [] := by
        rw [List.filter_eq_nil_iff]
        intro p hp
        obtain ⟨k, hk, hp⟩ := List.mem_flatMap.1 hp
        have h1 := hall k
        rw [if_neg (fun h : k = n => hnd.1 (h ▸ hk)), List.filter_eq_nil_iff] at h1
        exact h1 p hp
      rw [this, List.append_nil]
    · rw [if_neg (fun h : m = n => hnd.1 (h ▸ hn)), List.nil_append, ih hnd.2 hn]

/-- Score 1 is attained exactly by the query itself. -/
theorem score_eq_one_iff {ns : List ℕ} (hnd : ns.Nodup) (hpos : ∀ n ∈ ns, 1 ≤ n) {q w : List Char}
    (ht : 0 < totalCount ns q w) : score ns q w = 1 ↔ q = w := by
  have ht' : (totalCount ns q w : ℚ) ≠ 0 := by exact_mod_cast ht.ne'
  rw [score_eq hnd, div_eq_one_iff_eq ht', totalCount_eq]
  push_cast
  rw [locSim_full_iff]
  constructor
  · intro h
    have ht2 : 0 < (ns.map (fun n => count n q)).sum := by
      have h1 := h.length_eq
      rw [totalCount_eq] at ht
      rw [← length_allLocated]; omega
    have : ∃ n ∈ ns, 0 < count n q := by
      by_contra hc
      push Not at hc
      have : (ns.map (fun n => count n q)).sum = 0 := by
        apply List.sum_eq_zero
        intro x hx
        obtain ⟨n, hn, rfl⟩ := List.mem_map.1 hx
        have := hc n hn
        omega
      omega
    obtain ⟨n, hn, hc⟩ := this
    have h1 := h.filter (fun p => p.1.length = n)
    rw [allLocated_perm_located hnd hn, allLocated_perm_located hnd hn] at h1
    rw [count_eq] at hc
    exact located_perm_inj (hpos n hn) (by omega) h1
  · rintro rfl; exact List.Perm.refl _

end Verif
