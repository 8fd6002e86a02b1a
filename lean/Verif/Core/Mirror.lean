import Verif.Core.Edits

/-!
# Renaming characters and reading words backwards
-/

namespace Verif

open EmdSpec GramSpec

theorem emd_map_le {f : ℚ → ℚ} (hf : ∀ x y, |f x - f y| = |x - y|) (xs ys : List ℚ) :
    emd (xs.map f) (ys.map f) ≤ emd xs ys := by
  obtain ⟨M, hM, e⟩ := exists_opt_plan xs ys
  have h : IsPlan ((xs.map f : List ℚ) : Multiset ℚ) ((ys.map f : List ℚ) : Multiset ℚ)
      (M.map (Prod.map f f)) := by
    constructor
    · rw [Multiset.map_map, ← Multiset.map_coe]
      have := Multiset.map_le_map (f := f) hM.1
      rwa [Multiset.map_map] at this
    · rw [Multiset.map_map, ← Multiset.map_coe]
      have := Multiset.map_le_map (f := f) hM.2
      rwa [Multiset.map_map] at this
  refine (emd_le_plan h).trans (le_of_eq ?_)
  rw [e]
  simp [planCost, Multiset.map_map, hf]

theorem emd_mirror_unit (xs ys : List ℚ) :
    emd (xs.map fun x => 1 - x) (ys.map fun x => 1 - x) = emd xs ys := by
  have hf : ∀ x y : ℚ, |(1 - x) - (1 - y)| = |x - y| := by
    intro x y; rw [show (1 - x) - (1 - y) = -(x - y) by ring, abs_neg]
  apply le_antisymm (emd_map_le hf xs ys)
  have := emd_map_le hf (xs.map fun x => 1 - x) (ys.map fun x => 1 - x)
  simpa [List.map_map, Function.comp_def] using this

section
variable {γ δ : Type} [DecidableEq γ] [DecidableEq δ]

theorem locs_map {φ : γ → δ} {ψ : ℚ → ℚ} {L : List (γ × ℚ)} {g : γ}
    (h : ∀ p ∈ L, φ p.1 = φ g → p.1 = g) :
    Dict.locs (L.map fun p => (φ p.1, ψ p.2)) (φ g) = (Dict.locs L g).map ψ := by
  unfold Dict.locs
  rw [List.filter_map, List.map_map, List.map_map]
  have : L.filter ((fun p : δ × ℚ => decide (p.1 = φ g)) ∘ fun p => (φ p.1, ψ p.2)) =
      L.filter (fun p => decide (p.1 = g)) := by
    apply List.filter_congr
    intro p hp
    simp only [Function.comp, decide_eq_decide]
    exact ⟨h p hp, fun e => by rw [e]⟩
  rw [this]
  rfl

/-- Renaming n-grams injectively and mirroring positions keeps the similarity. -/
theorem locSim_map {φ : γ → δ} {ψ : ℚ → ℚ}
    (hψ : ∀ xs ys : List ℚ, emd (xs.map ψ) (ys.map ψ) = emd xs ys) {L₁ L₂ : List (γ × ℚ)}
    (hφ : Set.InjOn φ (↑(gramSet L₁ ∪ gramSet L₂) : Set γ)) :
    locSim (L₁.map fun p => (φ p.1, ψ p.2)) (L₂.map fun p => (φ p.1, ψ p.2)) = locSim L₁ L₂ := by
  have hg : ∀ L : List (γ × ℚ), gramSet (L.map fun p => (φ p.1, ψ p.2)) = (gramSet L).image φ := by
    intro L; ext g; simp [gramSet]
  have hmem : ∀ L : List (γ × ℚ), ∀ p ∈ L, p.1 ∈ gramSet L := by
    intro L p hp; rw [mem_gramSet]; exact List.mem_map.2 ⟨p, hp, rfl⟩
  unfold locSim
  rw [hg, hg, ← Finset.image_inter_of_injOn _ _ (by
    intro x hx y hy e; exact hφ (by simpa using hx) (by simpa using hy) e)]
  rw [Finset.sum_image (by
    intro x hx y hy e
    simp only [Finset.coe_inter, Set.mem_inter_iff, Finset.mem_coe] at hx hy
    exact hφ (by simp; tauto) (by simp; tauto) e)]
  apply Finset.sum_congr rfl
  intro g hg'
  rw [Finset.mem_inter] at hg'
  rw [locs_map (fun p hp e => hφ (by have := hmem _ p hp; simp; tauto) (by simp; tauto) e),
    locs_map (fun p hp e => hφ (by have := hmem _ p hp; simp; tauto) (by simp; tauto) e)]
  simp [contrib, hψ]

theorem locs_perm {L L' : List (γ × ℚ)} (h : L.Perm L') (g : γ) :
    (Dict.locs L g).Perm (Dict.locs L' g) := (h.filter _).map _

theorem locSim_perm {L₁ L₁' L₂ L₂' : List (γ × ℚ)} (h₁ : L₁.Perm L₁') (h₂ : L₂.Perm L₂') :
    locSim L₁ L₂ = locSim L₁' L₂' := by
  have hg : ∀ {L L' : List (γ × ℚ)}, L.Perm L' → gramSet L = gramSet L' := by
    intro L L' h; ext g; rw [mem_gramSet, mem_gramSet, (h.map Prod.fst).mem_iff]
  unfold locSim
  rw [hg h₁, hg h₂]
  apply Finset.sum_congr rfl
  intro g _
  exact contrib_perm (locs_perm h₁ g) (locs_perm h₂ g)

end

/-! ### Renaming -/

theorem mem_of_mem_gramSet_located {n : ℕ} {w g : List Char} (h : g ∈ gramSet (located n w)) :
    ∀ c ∈ g, c ∈ bracketed w := by
  rw [gramSet_located, List.mem_toFinset, grams, List.mem_map] at h
  obtain ⟨i, _, rfl⟩ := h
  intro c hc
  exact List.drop_subset _ _ (List.take_subset _ _ hc)

theorem located_rename (f : Char → Char) (n : ℕ) {w w' : List Char}
    (h : bracketed w' = (bracketed w).map f) :
    located n w' = (located n w).map fun p => (p.1.map f, p.2) := by
  have hl : count n w' = count n w := by unfold count; rw [h, List.length_map]
  unfold located
  rw [hl, List.map_map]
  apply List.map_congr_left
  intro i _
  simp only [Function.comp, gramAt, h, List.map_take, List.map_drop]

theorem map_injOn {f : Char → Char} {S : List Char}
    (hf : ∀ c ∈ S, ∀ d ∈ S, f c = f d → c = d) : ∀ {u v : List Char}, (∀ c ∈ u, c ∈ S) →
    (∀ c ∈ v, c ∈ S) → u.map f = v.map f → u = v
  | [], [], _, _, _ => rfl
  | [], _ :: _, _, _, h => by simp at h
  | _ :: _, [], _, _, h => by simp at h
  | a :: u, b :: v, hu, hv, h => by
    simp only [List.map_cons, List.cons.injEq] at h
    rw [hf a (hu a (by simp)) b (hv b (by simp)) h.1,
      map_injOn hf (fun c hc => hu c (List.mem_cons_of_mem _ hc))
        (fun c hc => hv c (List.mem_cons_of_mem _ hc)) h.2]

/-- Renaming that keeps the markers. -/
theorem locSim_rename {f : Char → Char} {a b a' b' : List Char} (n : ℕ)
    (ha : bracketed a' = (bracketed a).map f) (hb : bracketed b' = (bracketed b).map f)
    (hf : ∀ c ∈ bracketed a ++ bracketed b, ∀ d ∈ bracketed a ++ bracketed b, f c = f d → c = d) :
    locSim (located n a') (located n b') = locSim (located n a) (located n b) := by
  rw [located_rename f n ha, located_rename f n hb]
  apply locSim_map (ψ := fun x => x) (φ := List.map f) (by simp)
  have hsub : ∀ g ∈ gramSet (located n a) ∪ gramSet (located n b),
      ∀ c ∈ g, c ∈ bracketed a ++ bracketed b := by
    intro g hg c hc
    rw [Finset.mem_union] at hg
    rw [List.mem_append]
    rcases hg with hg | hg
    · exact Or.inl (mem_of_mem_gramSet_located hg c hc)
    · exact Or.inr (mem_of_mem_gramSet_located hg c hc)
  intro u hu v hv h
  exact map_injOn hf (hsub u (by simpa using hu)) (hsub v (by simpa using hv)) h

/-! ### Reading backwards -/

/-- Exchange the markers. -/
def swapMark (c : Char) : Char := if c = stx then etx else if c = etx then stx else c

theorem swapMark_swapMark (c : Char) : swapMark (swapMark c) = c := by
  unfold swapMark
  by_cases h1 : c = stx
  · rw [if_pos h1, if_neg (by decide), if_pos rfl, h1]
  · by_cases h2 : c = etx
    · rw [if_neg h1, if_pos h2, if_pos rfl, h2]
    · rw [if_neg h1, if_neg h2, if_neg h1, if_neg h2]

theorem bracketed_reverse {w : List Char} (h : Clean w) :
    bracketed w.reverse = ((bracketed w).map swapMark).reverse := by
  have hw : w.map swapMark = w := by
    conv_rhs => rw [← List.map_id w]
    apply List.map_congr_left
    intro c hc
    unfold swapMark
    rw [if_neg (fun e : c = stx => h.1 (e ▸ hc)), if_neg (fun e : c = etx => h.2 (e ▸ hc))]; rfl
  unfold bracketed
  rw [List.map_append, List.map_append, hw]
  simp [swapMark, stx, etx]

theorem count_reverse (n : ℕ) (w : List Char) : count n w.reverse = count n w := by
  rw [count_eq, count_eq, List.length_reverse]

theorem gramAt_reverse {n i : ℕ} {w : List Char} (h : Clean w) (hi : i < count n w) :
    gramAt n w.reverse i = ((gramAt n w (count n w - 1 - i)).map swapMark).reverse := by
  unfold gramAt
  rw [bracketed_reverse h]
  have hc : count n w = (bracketed w).length + 1 - n := rfl
  have hlen : ((bracketed w).map swapMark).length = (bracketed w).length := List.length_map _
  rw [List.map_take, List.map_drop]
  generalize (bracketed w).map swapMark = l at *
  have : i + n ≤ l.length := by omega
  rw [List.drop_reverse, List.take_reverse, List.length_take, List.take_drop]
  congr 1
  rw [List.drop_take]
  rw [show min (l.length - i) l.length - n = count n w - 1 - i by omega]
  rw [List.take_drop]
  congr 2
  omega

theorem located_reverse {n : ℕ} {w : List Char} (h : Clean w) (hc : 2 ≤ count n w) :
    (located n w.reverse).Perm
      ((located n w).map fun p => ((p.1.map swapMark).reverse, 1 - p.2)) := by
  have : located n w.reverse =
      ((located n w).map fun p => ((p.1.map swapMark).reverse, 1 - p.2)).reverse := by
    unfold located
    rw [count_reverse, List.map_map, ← List.map_reverse]
    apply List.ext_getElem
    · simp
    · intro i h1 h2
      simp only [List.length_map, List.length_range] at h1
      simp only [List.getElem_map, List.getElem_range, List.getElem_reverse, Function.comp,
        List.length_range]
      rw [gramAt_reverse h h1]
      congr 1
      unfold relPos
      have hq : (2 : ℚ) ≤ count n w := by exact_mod_cast hc
      rw [max_eq_right (by linarith), Nat.cast_sub (by omega), Nat.cast_sub (by omega)]
      have : (count n w : ℚ) - 1 ≠ 0 := by linarith
      field_simp
      push_cast
      ring
  rw [this]
  exact List.reverse_perm _

/-- A word with a single n-gram shares it only with itself. -/
theorem eq_of_shared_single {n : ℕ} {a b g : List Char} (hb : Clean b)
    (hc : count n a = 1) (h1 : g ∈ gramSet (located n a)) (h2 : g ∈ gramSet (located n b)) :
    a = b := by
  rw [gramSet_located, List.mem_toFinset, grams, List.mem_map] at h1 h2
  obtain ⟨i, hi, rfl⟩ := h1
  obtain ⟨j, hj, e⟩ := h2
  rw [List.mem_range, hc] at hi
  rw [List.mem_range] at hj
  have hi0 : i = 0 := by omega
  subst hi0
  rw [count_eq] at hc hj
  have ea : gramAt n a 0 = stx :: (a ++ [etx]) := by
    unfold gramAt bracketed
    rw [List.drop_zero, List.take_of_length_le (by simp; omega)]; simp
  rw [ea] at e
  unfold gramAt bracketed at e
  have hj0 : j = 0 := by
    by_contra hj0
    obtain ⟨j, rfl⟩ := Nat.exists_eq_succ_of_ne_zero hj0
    have hm : stx ∈ b ++ [etx] := by
      have : stx ∈ ((([stx] ++ b ++ [etx]).drop (j + 1)).take n) := by rw [e]; simp
      have := List.take_subset _ _ this
      rw [List.append_assoc, List.singleton_append, List.drop_succ_cons] at this
      exact List.drop_subset _ _ this
    rw [List.mem_append, List.mem_singleton] at hm
    rcases hm with hm | hm
    · exact hb.1 hm
    · exact absurd hm (by decide)
  subst hj0
  rw [List.drop_zero] at e
  have hpre : stx :: (a ++ [etx]) <+: stx :: (b ++ [etx]) := by
    rw [← e]; simpa using List.take_prefix n ([stx] ++ b ++ [etx])
  rw [List.cons_prefix_cons] at hpre
  have hpre := hpre.2
  obtain ⟨t, ht⟩ := hpre
  rcases List.eq_nil_or_concat t with rfl | ⟨t', z, rfl⟩
  · simp at ht; exact ht
  · exfalso
    rw [List.concat_eq_append, ← List.append_assoc] at ht
    have := (List.append_inj' ht (by simp)).1
    apply hb.2
    rw [← this]; simp

theorem locSim_single {n : ℕ} {a b : List Char} (ha : Clean a) (hb : Clean b)
    (hc : count n a = 1) :
    locSim (located n a) (located n b) = if a = b then 2 else 0 := by
  split
  · rename_i h
    rw [← h, locSim_self, length_located, hc]; norm_num
  · rename_i h
    unfold locSim
    rw [show gramSet (located n a) ∩ gramSet (located n b) = ∅ from ?_, Finset.sum_empty]
    rw [Finset.eq_empty_iff_forall_notMem]
    intro g hg
    rw [Finset.mem_inter] at hg
    exact h (eq_of_shared_single hb hc hg.1 hg.2)

theorem clean_reverse {w : List Char} (h : Clean w) : Clean w.reverse := by
  unfold Clean at *; simpa using h

theorem located_of_count_zero {n : ℕ} {w : List Char} (h : count n w = 0) : located n w = [] := by
  simp [located, h]

/-- The similarity of two words is that of the reversed words. -/
theorem locSim_reverse {n : ℕ} {a b : List Char} (ha : Clean a) (hb : Clean b) :
    locSim (located n a.reverse) (located n b.reverse) = locSim (located n a) (located n b) := by
  rcases Nat.lt_or_ge (count n a) 2 with h1 | h1
  · rcases Nat.eq_zero_or_pos (count n a) with h0 | h0
    · rw [located_of_count_zero h0, located_of_count_zero (by rw [count_reverse]; exact h0)]
      simp
    · have hc : count n a = 1 := by omega
      rw [locSim_single ha hb hc,
        locSim_single (clean_reverse ha) (clean_reverse hb) (by rw [count_reverse]; exact hc)]
      simp
  · rcases Nat.lt_or_ge (count n b) 2 with h2 | h2
    · rcases Nat.eq_zero_or_pos (count n b) with h0 | h0
      · rw [located_of_count_zero h0, located_of_count_zero (w := b.reverse)
          (by rw [count_reverse]; exact h0)]
        simp
      · have hc : count n b = 1 := by omega
        rw [locSim_comm, locSim_comm (located n a), locSim_single hb ha hc,
          locSim_single (clean_reverse hb) (clean_reverse ha) (by rw [count_reverse]; exact hc)]
        simp
    · rw [locSim_perm (located_reverse ha h1) (located_reverse hb h2)]
      refine locSim_map (φ := fun g : List Char => (g.map swapMark).reverse)
        (ψ := fun x : ℚ => 1 - x) emd_mirror_unit ?_
      intro u _ v _ h
      have h := List.reverse_injective h
      have := congrArg (List.map swapMark) h
      simpa [List.map_map, Function.comp_def, swapMark_swapMark] using this

end Verif
