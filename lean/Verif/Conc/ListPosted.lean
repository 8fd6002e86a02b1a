import Verif.Conc.ListSpec

/-!
# What a thread has entered into the dictionaries of n-grams and what remains
-/

namespace Verif
namespace ListConc

open GramSpec

variable {cf : List Char → List Char}

/-- What a step adds to the counts of `g`. -/
def countOf (g : List Char) (i : ℕ) : Act → Option (ℕ × ℕ)
  | .countAdd g' c => if g' = g then some (i, c) else none
  | _ => none

/-- What a step adds to the positions of `g`. -/
def posOf' (g : List Char) (i : ℕ) : Act → Option (ℕ × List ℚ)
  | .posAdd g' l => if g' = g then some (i, l) else none
  | _ => none

/-- The entries with index `i` are those of word `w`, except for what `acts` will add. -/
def Posted (m : WL) (i : ℕ) (w : List Char) (acts : List Act) : Prop := ∀ g,
  (((Dict.get? m.ngramCounts g).getD []).filter (fun e => e.1 = i) ++
    acts.filterMap (countOf g i)).Perm
      ((posEntry m.nList g w i).toList.map (fun p => (p.1, p.2.length))) ∧
  (((Dict.get? m.ngramPositions g).getD []).filter (fun e => e.1 = i) ++
    acts.filterMap (posOf' g i)).Perm (posEntry m.nList g w i).toList ∧
  ((i ∈ (Dict.get? m.ngramFilter g).getD [] ∨ Act.filterAdd g ∈ acts) ↔
    m.filterN ≠ 0 ∧ g ∈ getNGrams w m.filterN)

/-- There are no entries with index `i`. -/
def Unposted (m : WL) (i : ℕ) : Prop := ∀ g,
  ((Dict.get? m.ngramCounts g).getD []).filter (fun e => e.1 = i) = [] ∧
  ((Dict.get? m.ngramPositions g).getD []).filter (fun e => e.1 = i) = [] ∧
  i ∉ (Dict.get? m.ngramFilter g).getD []

theorem getD_setDefault {κ ν : Type} [DecidableEq κ] (d : Dict κ (List ν)) (k k' : κ) :
    (Dict.get? (setDefault d k) k').getD [] = (Dict.get? d k').getD [] := by
  unfold setDefault
  split
  · rfl
  · rename_i h
    rw [Dict.get?_set]
    by_cases e : k = k'
    · subst e
      rw [Dict.has_iff] at h
      rw [Dict.get?_eq_none.2 h]; simp
    · simp [e]

theorem Posted.run {m : WL} {i : ℕ} {w : List Char} {a : Act} {acts : List Act}
    (h : Posted m i w (a :: acts)) : Posted (a.run i m) i w acts := by
  intro g
  obtain ⟨h1, h2, h3⟩ := h g
  cases a with
  | filterKey g' =>
    refine ⟨h1, h2, ?_⟩
    simpa [Act.run, getD_setDefault] using h3
  | filterAdd g' =>
    refine ⟨h1, h2, ?_⟩
    simp only [Act.run, getD_addToSet_mem]
    rw [← h3]
    simp only [List.mem_cons, Act.filterAdd.injEq, and_true, eq_comm (a := g)]
    tauto
  | countKey g' => exact ⟨by simp only [Act.run, getD_setDefault]; exact h1, h2, by simpa [Act.run] using h3⟩
  | countAdd g' c =>
    refine ⟨?_, h2, by simpa [Act.run] using h3⟩
    simp only [Act.run, getD_appendTo]
    by_cases e : g' = g
    · simpa [countOf, e, List.filter_append] using h1
    · simpa [countOf, e] using h1
  | posKey g' => exact ⟨h1, by simp only [Act.run, getD_setDefault]; exact h2, by simpa [Act.run] using h3⟩
  | posAdd g' l =>
    refine ⟨h1, ?_, by simpa [Act.run] using h3⟩
    simp only [Act.run, getD_appendTo]
    by_cases e : g' = g
    · simpa [posOf', e, List.filter_append] using h2
    · simpa [posOf', e] using h2

/-- A step for another index. -/
theorem run_same (m : WL) {i j : ℕ} (h : j ≠ i) (a : Act) (g : List Char) :
    ((Dict.get? (a.run i m).ngramCounts g).getD []).filter (fun e => e.1 = j) =
      ((Dict.get? m.ngramCounts g).getD []).filter (fun e => e.1 = j) ∧
    ((Dict.get? (a.run i m).ngramPositions g).getD []).filter (fun e => e.1 = j) =
      ((Dict.get? m.ngramPositions g).getD []).filter (fun e => e.1 = j) ∧
    (j ∈ (Dict.get? (a.run i m).ngramFilter g).getD [] ↔
      j ∈ (Dict.get? m.ngramFilter g).getD []) := by
  cases a with
  | filterKey g' => simp [Act.run, getD_setDefault]
  | filterAdd g' => simp [Act.run, getD_addToSet_mem, h]
  | countKey g' => simp [Act.run, getD_setDefault]
  | countAdd g' c =>
    simp only [Act.run, getD_appendTo, and_true]
    by_cases e : g' = g
    · simp [e, Ne.symm h]
    · simp [e]
  | posKey g' => simp [Act.run, getD_setDefault]
  | posAdd g' l =>
    simp only [Act.run, getD_appendTo, and_true, true_and]
    by_cases e : g' = g
    · simp [e, Ne.symm h]
    · simp [e]

theorem Posted.other {m : WL} {i j : ℕ} {w : List Char} {acts : List Act} (hij : j ≠ i)
    (h : Posted m j w acts) (a : Act) : Posted (a.run i m) j w acts := by
  intro g
  obtain ⟨e1, e2, e3⟩ := run_same m hij a g
  have hn : (a.run i m).nList = m.nList := by cases a <;> rfl
  have hf : (a.run i m).filterN = m.filterN := by cases a <;> rfl
  rw [e1, e2, e3, hn, hf]
  exact h g

theorem Unposted.other {m : WL} {i j : ℕ} (hij : j ≠ i) (h : Unposted m j) (a : Act) :
    Unposted (a.run i m) j := by
  intro g
  obtain ⟨e1, e2, e3⟩ := run_same m hij a g
  rw [e1, e2, e3]
  exact h g

theorem filterMap_items {β : Type} (f : Act → Option β) (g : List Char)
    (v : List Char × List ℚ → β)
    (items : List (List Char × List ℚ))
    (hf : ∀ it : List Char × List ℚ, [Act.countKey it.1, .countAdd it.1 it.2.length, .posKey it.1,
      .posAdd it.1 it.2].filterMap f = if it.1 = g then [v it] else []) :
    (items.flatMap fun it => [Act.countKey it.1, .countAdd it.1 it.2.length, .posKey it.1,
      .posAdd it.1 it.2]).filterMap f = (items.filter (fun it => it.1 = g)).map v := by
  induction items with
  | nil => rfl
  | cons it items ih =>
    rw [List.flatMap_cons, List.filterMap_append, ih, hf, List.filter_cons]
    by_cases e : it.1 = g <;> simp [e]

/-- A thread that has entered nothing has everything before it. -/
theorem Unposted.posted {m : WL} {i : ℕ} (h : Unposted m i) (hn : m.nList.Nodup)
    (hp : ∀ n ∈ m.nList, 0 < n) {c : Call} (hc : c.Fair) (w : List Char) :
    Posted m i w (program c m.nList m.filterN w) := by
  intro g
  obtain ⟨h1, h2, h3⟩ := h g
  have hper := hc.2 m.nList
  have hitems : ((c.sizes m.nList).flatMap fun n =>
      (addLocations (getNGrams w n)).flatMap fun it =>
        [Act.countKey it.1, .countAdd it.1 it.2.length, .posKey it.1, .posAdd it.1 it.2]) =
      (gramItems (c.sizes m.nList) w).flatMap fun it =>
        [Act.countKey it.1, .countAdd it.1 it.2.length, .posKey it.1, .posAdd it.1 it.2] := by
    unfold gramItems
    rw [List.flatMap_assoc]
    simp only [addLocations_eq]
  have hfil : (gramItems (c.sizes m.nList) w).filter (fun it => it.1 = g) =
      if (g.length : ℤ) ∈ m.nList ∧ g ∈ getNGrams w g.length then
        [(g, Dict.locs (locatedOf (getNGrams w g.length)) g)] else [] := by
    rw [filter_gramItems (hper.nodup_iff.2 hn) (fun n hm => hp n (hper.mem_iff.1 hm))]
    simp only [hper.mem_iff]
  have hnone : ∀ {β : Type} (f : Act → Option β), (∀ g, f (.filterKey g) = none) →
      (∀ g, f (.filterAdd g) = none) → (if m.filterN ≠ 0 then
        (c.grams (getNGrams w m.filterN).dedup).flatMap fun g => [Act.filterKey g, .filterAdd g]
      else []).filterMap f = [] := by
    intro β f hf1 hf2
    split
    · rw [List.filterMap_eq_nil_iff]
      intro a ha
      obtain ⟨g', _, ha⟩ := List.mem_flatMap.1 ha
      simp only [List.mem_cons, List.not_mem_nil, or_false] at ha
      rcases ha with rfl | rfl
      · exact hf1 _
      · exact hf2 _
    · rfl
  refine ⟨?_, ?_, ?_⟩
  · rw [h1, List.nil_append]
    unfold program
    rw [List.filterMap_append, hnone (countOf g i) (fun _ => rfl) (fun _ => rfl), List.nil_append, hitems,
      filterMap_items (countOf g i) g (fun it => (i, it.2.length))]
    · rw [hfil]
      unfold posEntry
      split <;> simp
    · intro it
      by_cases e : it.1 = g <;> simp [List.filterMap_cons, countOf, e]
  · rw [h2, List.nil_append]
    unfold program
    rw [List.filterMap_append, hnone (posOf' g i) (fun _ => rfl) (fun _ => rfl), List.nil_append, hitems,
      filterMap_items (posOf' g i) g (fun it => (i, it.2))]
    · rw [hfil]
      unfold posEntry
      split <;> simp
    · intro it
      by_cases e : it.1 = g <;> simp [List.filterMap_cons, posOf', e]
  · unfold program
    rw [List.mem_append, hitems]
    have hno : Act.filterAdd g ∉ (gramItems (c.sizes m.nList) w).flatMap fun it =>
        [Act.countKey it.1, .countAdd it.1 it.2.length, .posKey it.1, .posAdd it.1 it.2] := by
      intro hm
      obtain ⟨it, _, hm⟩ := List.mem_flatMap.1 hm
      simp at hm
    simp only [h3, hno, or_false, false_or]
    split
    · rename_i hz
      rw [List.mem_flatMap]
      simp only [List.mem_cons, List.not_mem_nil, or_false, reduceCtorEq, false_or, Act.filterAdd.injEq]
      constructor
      · rintro ⟨g', hg', rfl⟩
        exact ⟨hz, List.mem_dedup.1 ((hc.1 _).mem_iff.1 hg')⟩
      · rintro ⟨_, hg⟩
        exact ⟨g, (hc.1 _).mem_iff.2 (List.mem_dedup.2 hg), rfl⟩
    · rename_i hz
      simp [hz]

end ListConc
end Verif
