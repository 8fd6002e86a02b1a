import Verif.Auto.DfaLemmas
import Verif.Edit.Metric

/-!
# Lemmas about `levenshtein_automaton`
-/

namespace Verif
namespace Auto

open AutoSpec EditSpec Edit

/-- Transitions added in lines 226–233. -/
def levTs (k : ℤ) (i c d : ℕ) : List (State × Sym × State) :=
  ((i, d), Sym.chr c, (i + 1, d)) ::
    if (d : ℤ) < k then [((i, d), .any, (i, d + 1)), ((i, d), .eps, (i + 1, d + 1)),
      ((i, d), .any, (i + 1, d + 1))] else []

/-- Transitions added in line 236. -/
def lastTs (k : ℤ) (n d : ℕ) : List (State × Sym × State) :=
  if (d : ℤ) < k then [((n, d), .any, (n, d + 1))] else []

/-- All transitions of the automaton. -/
def autoTs (word : List ℕ) (k : ℤ) : List (State × Sym × State) :=
  word.zipIdx.flatMap (fun p => (List.range (k + 1).toNat).flatMap (levTs k p.2 p.1)) ++
    (List.range (k + 1).toNat).flatMap (lastTs k word.length)

/-- All final states of the automaton. -/
def autoFs (word : List ℕ) (k : ℤ) : List State :=
  (List.range (k + 1).toNat).map (fun d => (word.length, d))

theorem rep_levStep {nfa : NFA} {ts : List (State × Sym × State)} {fs : List State}
    (h : Rep nfa ts fs) (k : ℤ) (i c d : ℕ) : Rep (levStep k i c nfa d) (ts ++ levTs k i c d) fs := by
  unfold levStep levTs
  have h1 := h.addTransition (i, d) (.chr c) (i + 1, d)
  by_cases hk : (d : ℤ) < k
  · simp only [hk, if_true]
    have h2 := ((h1.addTransition (i, d) .any (i, d + 1)).addTransition (i, d) .eps
      (i + 1, d + 1)).addTransition (i, d) .any (i + 1, d + 1)
    simpa using h2
  · simp only [hk, if_false]
    exact h1

theorem rep_levLast {nfa : NFA} {ts : List (State × Sym × State)} {fs : List State}
    (h : Rep nfa ts fs) (k : ℤ) (n d : ℕ) :
    Rep (levLast k n nfa d) (ts ++ lastTs k n d) (fs ++ [(n, d)]) := by
  unfold levLast lastTs
  by_cases hk : (d : ℤ) < k
  · simp only [hk, if_true]
    exact (h.addTransition (n, d) .any (n, d + 1)).addFinalState (n, d)
  · simp only [hk, if_false, List.append_nil]
    exact h.addFinalState (n, d)

theorem rep_automaton (word : List ℕ) (k : ℤ) :
    Rep (levenshteinAutomaton word k) (autoTs word k) (autoFs word k) := by
  have h1 : ∀ (ds : List ℕ) (i c : ℕ) (nfa : NFA) (ts : List (State × Sym × State)) (fs : List State),
      Rep nfa ts fs → Rep (ds.foldl (levStep k i c) nfa) (ts ++ ds.flatMap (levTs k i c)) fs := by
    intro ds i c
    induction ds with
    | nil => intro nfa ts fs h; simpa using h
    | cons d ds ih =>
      intro nfa ts fs h
      have := ih _ _ _ (rep_levStep h k i c d)
      simpa using this
  have h2 : ∀ (ps : List (ℕ × ℕ)) (ds : List ℕ) (nfa : NFA) (ts : List (State × Sym × State))
      (fs : List State), Rep nfa ts fs →
      Rep (ps.foldl (fun nfa p => ds.foldl (levStep k p.2 p.1) nfa) nfa)
        (ts ++ ps.flatMap (fun p => ds.flatMap (levTs k p.2 p.1))) fs := by
    intro ps ds
    induction ps with
    | nil => intro nfa ts fs h; simpa using h
    | cons p ps ih =>
      intro nfa ts fs h
      have := ih _ _ _ (h1 ds p.2 p.1 _ _ _ h)
      simpa using this
  have h3 : ∀ (ds : List ℕ) (n : ℕ) (nfa : NFA) (ts : List (State × Sym × State)) (fs : List State),
      Rep nfa ts fs → Rep (ds.foldl (levLast k n) nfa) (ts ++ ds.flatMap (lastTs k n))
        (fs ++ ds.map (fun d => (n, d))) := by
    intro ds n
    induction ds with
    | nil => intro nfa ts fs h; simpa using h
    | cons d ds ih =>
      intro nfa ts fs h
      have := ih _ _ _ (rep_levLast h k n d)
      simpa using this
  have := h3 (List.range (k + 1).toNat) word.length _ _ _
    (h2 word.zipIdx (List.range (k + 1).toNat) _ _ _ rep_new)
  simpa [levenshteinAutomaton, autoTs, autoFs] using this

theorem mem_dists {k : ℤ} {d : ℕ} : d ∈ List.range (k + 1).toNat ↔ (d : ℤ) ≤ k := by
  rw [List.mem_range]; omega

theorem mem_autoTs {word : List ℕ} {k : ℤ} {i d : ℕ} {x : Sym} {t : State} :
    ((i, d), x, t) ∈ autoTs word k ↔ (d : ℤ) ≤ k ∧
      ((∃ c, word[i]? = some c ∧ x = .chr c ∧ t = (i + 1, d)) ∨
       (i ≤ word.length ∧ (d : ℤ) < k ∧ x = .any ∧ t = (i, d + 1)) ∨
       (i < word.length ∧ (d : ℤ) < k ∧ x = .any ∧ t = (i + 1, d + 1)) ∨
       (i < word.length ∧ (d : ℤ) < k ∧ x = .eps ∧ t = (i + 1, d + 1))) := by
  unfold autoTs
  rw [List.mem_append, List.mem_flatMap, List.mem_flatMap]
  constructor
  · rintro (⟨⟨c, i'⟩, hp, h⟩ | ⟨d', hd', h⟩)
    · rw [List.mem_zipIdx_iff_getElem?] at hp
      simp only [List.mem_flatMap] at h
      obtain ⟨d', hd', h⟩ := h
      rw [mem_dists] at hd'
      have hlt := (List.getElem?_eq_some_iff.mp hp).1
      simp only at hp hlt h
      unfold levTs at h
      rcases List.mem_cons.mp h with h | h
      · simp only [Prod.mk.injEq] at h
        obtain ⟨⟨rfl, rfl⟩, rfl, rfl⟩ := h
        exact ⟨hd', Or.inl ⟨c, hp, rfl, rfl⟩⟩
      · by_cases hk : (d' : ℤ) < k
        · rw [if_pos hk] at h
          simp only [List.mem_cons, Prod.mk.injEq, List.not_mem_nil, or_false] at h
          rcases h with ⟨⟨rfl, rfl⟩, rfl, rfl⟩ | ⟨⟨rfl, rfl⟩, rfl, rfl⟩ | ⟨⟨rfl, rfl⟩, rfl, rfl⟩
          · exact ⟨hd', Or.inr (Or.inl ⟨hlt.le, hk, rfl, rfl⟩)⟩
          · exact ⟨hd', Or.inr (Or.inr (Or.inr ⟨hlt, hk, rfl, rfl⟩))⟩
          · exact ⟨hd', Or.inr (Or.inr (Or.inl ⟨hlt, hk, rfl, rfl⟩))⟩
        · rw [if_neg hk] at h; simp at h
    · rw [mem_dists] at hd'
      unfold lastTs at h
      by_cases hk : (d' : ℤ) < k
      · rw [if_pos hk] at h
        simp only [List.mem_singleton, Prod.mk.injEq] at h
        obtain ⟨⟨rfl, rfl⟩, rfl, rfl⟩ := h
        exact ⟨hd', Or.inr (Or.inl ⟨le_refl _, hk, rfl, rfl⟩)⟩
      · rw [if_neg hk] at h; simp at h
  · rintro ⟨hd, h⟩
    have key : ∀ c, word[i]? = some c → ((i, d), x, t) ∈ levTs k i c d →
        ∃ a ∈ word.zipIdx, ((i, d), x, t) ∈ (List.range (k + 1).toNat).flatMap (levTs k a.2 a.1) := by
      intro c hc hm
      exact ⟨(c, i), List.mem_zipIdx_iff_getElem?.mpr hc,
        List.mem_flatMap.mpr ⟨d, mem_dists.mpr hd, hm⟩⟩
    rcases h with ⟨c, hc, rfl, rfl⟩ | ⟨hi, hk, rfl, rfl⟩ | ⟨hi, hk, rfl, rfl⟩ | ⟨hi, hk, rfl, rfl⟩
    · exact Or.inl (key c hc (by simp [levTs]))
    · by_cases hi' : i < word.length
      · exact Or.inl (key word[i] (List.getElem?_eq_getElem hi') (by simp [levTs, hk]))
      · have : i = word.length := by omega
        subst this
        exact Or.inr ⟨d, mem_dists.mpr hd, by simp [lastTs, hk]⟩
    · exact Or.inl (key word[i] (List.getElem?_eq_getElem hi) (by simp [levTs, hk]))
    · exact Or.inl (key word[i] (List.getElem?_eq_getElem hi) (by simp [levTs, hk]))

theorem mem_autoFs {word : List ℕ} {k : ℤ} {i d : ℕ} :
    (i, d) ∈ autoFs word k ↔ i = word.length ∧ (d : ℤ) ≤ k := by
  unfold autoFs
  rw [List.mem_map]
  constructor
  · rintro ⟨d', hd', h⟩
    simp only [Prod.mk.injEq] at h
    obtain ⟨rfl, rfl⟩ := h
    exact ⟨rfl, mem_dists.mp hd'⟩
  · rintro ⟨rfl, h⟩
    exact ⟨d, mem_dists.mpr h, rfl⟩

theorem unit_snoc_right (p q : List ℕ) (c : ℕ) :
    dist unitCosts p (q ++ [c]) ≤ dist unitCosts p q + 1 := by
  have h1 := unit_triangle p q (q ++ [c])
  have h2 : dist unitCosts q (q ++ [c]) ≤ 1 := unit_oneEdit (by
    have := OneEdit.ins q c []
    simpa using this)
  omega

theorem unit_snoc_left (p q : List ℕ) (c : ℕ) :
    dist unitCosts (p ++ [c]) q ≤ dist unitCosts p q + 1 := by
  rw [unit_symm (p ++ [c]), unit_symm p]; exact unit_snoc_right q p c

theorem unit_snoc_both (p q : List ℕ) (a b : ℕ) :
    dist unitCosts (p ++ [a]) (q ++ [b]) ≤ dist unitCosts p q + 1 := by
  rw [unit_snoc]
  split <;> omega

theorem take_succ' {word : List ℕ} {i c : ℕ} (h : word[i]? = some c) :
    word.take (i + 1) = word.take i ++ [c] := by
  rw [List.take_add_one, h]; rfl

/-- A state that can be reached bounds the distance from the prefix of the word. -/
theorem path_dist {word : List ℕ} {k : ℤ} {w : List ℕ} {t : State}
    (h : Path (autoTs word k) (0, 0) w t) :
    t.1 ≤ word.length ∧ dist unitCosts (word.take t.1) w ≤ t.2 ∧ (0 ≤ k → (t.2 : ℤ) ≤ k) := by
  induction h with
  | nil => exact ⟨Nat.zero_le _, by simp [unit_self], fun h => by simpa using h⟩
  | @eps w t u _ hu ih =>
    obtain ⟨i, d⟩ := t
    obtain ⟨-, h⟩ := mem_autoTs.mp hu
    rcases h with ⟨c, hc, h, -⟩ | ⟨_, _, h, _⟩ | ⟨_, _, h, _⟩ | ⟨hi, hk, -, rfl⟩
    · cases h
    · cases h
    · cases h
    · refine ⟨hi, ?_, fun _ => by simp only; omega⟩
      simp only [take_succ' (List.getElem?_eq_getElem hi)] at ih ⊢
      have := unit_snoc_left (word.take i) w word[i]
      omega
  | @any w t u c _ hu ih =>
    obtain ⟨i, d⟩ := t
    obtain ⟨-, h⟩ := mem_autoTs.mp hu
    rcases h with ⟨c, hc, h, -⟩ | ⟨hi, hk, -, rfl⟩ | ⟨hi, hk, -, rfl⟩ | ⟨_, _, h, _⟩
    · cases h
    · refine ⟨hi, ?_, fun _ => by simp only; omega⟩
      have := unit_snoc_right (word.take i) w c
      simp only at ih ⊢
      omega
    · refine ⟨hi, ?_, fun _ => by simp only; omega⟩
      simp only [take_succ' (List.getElem?_eq_getElem hi)] at ih ⊢
      have := unit_snoc_both (word.take i) w word[i] c
      omega
    · cases h
  | @chr w t u c _ hu ih =>
    obtain ⟨i, d⟩ := t
    obtain ⟨-, h⟩ := mem_autoTs.mp hu
    rcases h with ⟨c', hc, h, rfl⟩ | ⟨_, _, h, _⟩ | ⟨_, _, h, _⟩ | ⟨_, _, h, _⟩
    · simp only [Sym.chr.injEq] at h
      subst h
      refine ⟨(List.getElem?_eq_some_iff.mp hc).1, ?_, ih.2.2⟩
      simp only [take_succ' hc, unit_snoc_same] at ih ⊢
      exact ih.2.1
    · cases h
    · cases h
    · cases h

/-- Conversely the distance itself is reached. -/
theorem dist_path {word : List ℕ} {k : ℤ} (w : List ℕ) (i : ℕ) (hi : i ≤ word.length)
    (hk : ((dist unitCosts (word.take i) w : ℕ) : ℤ) ≤ k) :
    Path (autoTs word k) (0, 0) w (i, dist unitCosts (word.take i) w) := by
  induction w using List.reverseRecOn generalizing i with
  | nil =>
    rw [unit_nil_right] at hk ⊢
    induction i with
    | zero => exact .nil _
    | succ i ihi =>
      have e1 : (word.take (i + 1)).length = i + 1 := by simp; omega
      have e2 : (word.take i).length = i := by simp; omega
      rw [e2] at ihi
      rw [e1] at hk ⊢
      refine Path.eps (ihi (by omega) (by omega)) (mem_autoTs.mpr ⟨by omega, ?_⟩)
      exact Or.inr (Or.inr (Or.inr ⟨by omega, by omega, rfl, rfl⟩))
  | append_singleton w c ih =>
    induction i with
    | zero =>
      have e1 : dist unitCosts (word.take 0) (w ++ [c]) = dist unitCosts (word.take 0) w + 1 := by
        simp [unit_nil_left]
      rw [e1] at hk ⊢
      refine Path.any c (ih 0 (by omega) (by omega)) (mem_autoTs.mpr ⟨by omega, ?_⟩)
      exact Or.inr (Or.inl ⟨by omega, by omega, rfl, rfl⟩)
    | succ i ihi =>
      have hc := List.getElem?_eq_getElem (l := word) (i := i) (by omega)
      rw [take_succ' hc] at hk ⊢
      have hu := unit_snoc (word.take i) w word[i] c
      have hcase : dist unitCosts (word.take i ++ [word[i]]) (w ++ [c]) =
          dist unitCosts (word.take i ++ [word[i]]) w + 1 ∨
          dist unitCosts (word.take i ++ [word[i]]) (w ++ [c]) =
            dist unitCosts (word.take i) (w ++ [c]) + 1 ∨
          (word[i] ≠ c ∧ dist unitCosts (word.take i ++ [word[i]]) (w ++ [c]) =
            dist unitCosts (word.take i) w + 1) ∨
          (word[i] = c ∧ dist unitCosts (word.take i ++ [word[i]]) (w ++ [c]) =
            dist unitCosts (word.take i) w) := by
        by_cases hcc : word[i] = c
        · simp only [hcc, ne_eq, not_true_eq_false, if_false, false_and, true_and, false_or] at hu ⊢
          omega
        · simp only [hcc, ne_eq, not_false_eq_true, if_true, false_and, true_and, or_false] at hu ⊢
          omega
      rcases hcase with h | h | ⟨hne, h⟩ | ⟨heq, h⟩
      · rw [h] at hk ⊢
        have := ih (i + 1) hi (by rw [take_succ' hc]; omega)
        rw [take_succ' hc] at this
        exact Path.any c this (mem_autoTs.mpr ⟨by omega, Or.inr (Or.inl ⟨hi, by omega, rfl, rfl⟩)⟩)
      · rw [h] at hk ⊢
        exact Path.eps (ihi (by omega) (by omega)) (mem_autoTs.mpr ⟨by omega,
          Or.inr (Or.inr (Or.inr ⟨by omega, by omega, rfl, rfl⟩))⟩)
      · rw [h] at hk ⊢
        exact Path.any c (ih i (by omega) (by omega)) (mem_autoTs.mpr ⟨by omega,
          Or.inr (Or.inr (Or.inl ⟨by omega, by omega, rfl, rfl⟩))⟩)
      · rw [h] at hk ⊢
        exact Path.chr c (ih i (by omega) (by omega)) (mem_autoTs.mpr ⟨by omega,
          Or.inl ⟨c, by rw [hc, heq], rfl, rfl⟩⟩)

/-- The automaton accepts the words within distance `k`. -/
theorem accepts_iff (word : List ℕ) (k : ℤ) (w : List ℕ) :
    (∃ t ∈ autoFs word k, Path (autoTs word k) (0, 0) w t) ↔ ((dist unitCosts word w : ℕ) : ℤ) ≤ k := by
  constructor
  · rintro ⟨⟨i, d⟩, ht, hp⟩
    obtain ⟨rfl, hd⟩ := mem_autoFs.mp ht
    have := (path_dist hp).2.1
    rw [List.take_length] at this
    simp only at this
    omega
  · intro h
    refine ⟨(word.length, dist unitCosts word w), mem_autoFs.mpr ⟨rfl, h⟩, ?_⟩
    have := dist_path (word := word) (k := k) w word.length (le_refl _) (by
      rw [List.take_length]; exact h)
    rwa [List.take_length] at this

end Auto
end Verif
