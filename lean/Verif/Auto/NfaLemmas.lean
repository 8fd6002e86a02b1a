import Verif.Auto.Spec
import Mathlib.Logic.Relation

/-!
# Lemmas about `NFA`
-/

namespace Verif
namespace Auto

open AutoSpec

/-- The automaton after any sequence of `add_transition` and `add_final_state` calls has exactly the
transitions and final states that were added. -/
structure Rep (nfa : NFA) (ts : List (State × Sym × State)) (fs : List State) : Prop where
  delta : ∀ s c t, t ∈ nfa.delta s c ↔ (s, c, t) ∈ ts
  inputs : ∀ s c, c ∈ Dict.keys ((Dict.get? nfa.transitions s).getD []) ↔ ∃ t, (s, c, t) ∈ ts
  finals : ∀ s, s ∈ nfa.finalStates ↔ s ∈ fs

theorem rep_new : Rep NFA.new [] [] := by
  constructor <;> simp [NFA.new, NFA.delta]

theorem delta_addTransition (nfa : NFA) (src dest s t : State) (c c' : Sym) :
    t ∈ (nfa.addTransition src c dest).delta s c' ↔
      t ∈ nfa.delta s c' ∨ (s = src ∧ c' = c ∧ t = dest) := by
  unfold NFA.addTransition NFA.delta
  simp only [Dict.get?_set]
  by_cases hs : src = s
  · subst hs
    simp only [if_true, Option.getD_some, Dict.get?_set]
    by_cases hc : c = c'
    · subst hc
      simp [or_comm]
    · simp [hc, Ne.symm hc]
  · simp [hs, Ne.symm hs]

theorem inputs_addTransition (nfa : NFA) (src dest s : State) (c c' : Sym) :
    c' ∈ Dict.keys ((Dict.get? (nfa.addTransition src c dest).transitions s).getD []) ↔
      c' ∈ Dict.keys ((Dict.get? nfa.transitions s).getD []) ∨ (s = src ∧ c' = c) := by
  unfold NFA.addTransition
  simp only [Dict.get?_set]
  by_cases hs : src = s
  · subst hs
    simp only [if_true, Option.getD_some, Dict.mem_keys_set]
    tauto
  · simp [hs, Ne.symm hs]

theorem Rep.addTransition {nfa : NFA} {ts : List (State × Sym × State)} {fs : List State}
    (h : Rep nfa ts fs) (src : State) (c : Sym) (dest : State) :
    Rep (nfa.addTransition src c dest) (ts ++ [(src, c, dest)]) fs := by
  constructor
  · intro s c' t
    rw [delta_addTransition, h.delta]
    simp
  · intro s c'
    rw [inputs_addTransition, h.inputs]
    constructor
    · rintro (⟨t, ht⟩ | ⟨rfl, rfl⟩)
      · exact ⟨t, by simp [ht]⟩
      · exact ⟨dest, by simp⟩
    · rintro ⟨t, ht⟩
      simp only [List.mem_append, List.mem_singleton, Prod.mk.injEq] at ht
      rcases ht with ht | ⟨h1, h2, -⟩
      · exact Or.inl ⟨t, ht⟩
      · exact Or.inr ⟨h1, h2⟩
  · exact h.finals

theorem Rep.addFinalState {nfa : NFA} {ts : List (State × Sym × State)} {fs : List State}
    (h : Rep nfa ts fs) (s : State) : Rep (nfa.addFinalState s) ts (fs ++ [s]) := by
  constructor
  · exact h.delta
  · exact h.inputs
  · intro t
    simp only [NFA.addFinalState, Finset.mem_insert, h.finals, List.mem_append, List.mem_singleton]
    tauto

theorem mem_foldr_union (l : List (Finset State)) (t : State) :
    t ∈ l.foldr (· ∪ ·) ∅ ↔ ∃ S ∈ l, t ∈ S := by
  induction l with
  | nil => simp
  | cons a l ih => simp [ih]

theorem delta_subset_dests (nfa : NFA) (s : State) (c : Sym) : nfa.delta s c ⊆ nfa.dests := by
  intro t ht
  unfold NFA.delta at ht
  unfold NFA.dests
  rw [mem_foldr_union]
  cases h1 : Dict.get? nfa.transitions s with
  | none => simp [h1] at ht
  | some d =>
    rw [h1, Option.getD_some] at ht
    cases h2 : Dict.get? d c with
    | none => simp [h2] at ht
    | some S =>
      rw [h2, Option.getD_some] at ht
      exact ⟨S, List.mem_flatMap.mpr ⟨(s, d), Dict.mem_of_get? h1,
        List.mem_map.mpr ⟨(c, S), Dict.mem_of_get? h2, rfl⟩⟩, ht⟩

/-- Reachability by `EPSILON` transitions. -/
def EpsReach (nfa : NFA) : State → State → Prop :=
  Relation.ReflTransGen (fun a b => b ∈ nfa.delta a .eps)

/-- The choice made by `set.pop` returns an element. -/
def PickOk (pick : Finset State → State) : Prop := ∀ S : Finset State, S.Nonempty → pick S ∈ S

theorem expandLoop_spec {pick : Finset State → State} (hp : PickOk pick) (nfa : NFA) (fuel : ℕ) :
    ∀ frontier states : Finset State, frontier ⊆ states →
      (∀ s ∈ states, s ∉ frontier → nfa.delta s .eps ⊆ states) →
      frontier.card + (nfa.dests \ states).card < fuel →
      states ⊆ nfa.expandLoop pick fuel frontier states ∧
      (∀ s ∈ nfa.expandLoop pick fuel frontier states,
        nfa.delta s .eps ⊆ nfa.expandLoop pick fuel frontier states) ∧
      (∀ t ∈ nfa.expandLoop pick fuel frontier states, ∃ s ∈ states, EpsReach nfa s t) := by
  induction fuel with
  | zero => intro _ _ _ _ h; omega
  | succ fuel ih =>
    intro frontier states hsub hclosed hfuel
    rw [NFA.expandLoop]
    by_cases hf : frontier = ∅
    · rw [if_pos hf]
      subst hf
      exact ⟨subset_refl _, fun s hs => hclosed s hs (by simp), fun t ht => ⟨t, ht, .refl⟩⟩
    · rw [if_neg hf]
      simp only
      have hpf : pick frontier ∈ frontier := hp _ (Finset.nonempty_iff_ne_empty.mpr hf)
      generalize pick frontier = x at hpf
      generalize hN : nfa.delta x .eps \ states = N
      have hNd : N ⊆ nfa.dests \ states := by
        rw [← hN]
        exact Finset.sdiff_subset_sdiff (delta_subset_dests _ _ _) (subset_refl _)
      have hNs : Disjoint N states := by rw [← hN]; exact Finset.sdiff_disjoint
      have h1 : frontier.erase x ∪ N ⊆ states ∪ N :=
        Finset.union_subset_union ((Finset.erase_subset _ _).trans hsub) (subset_refl _)
      have h2 : ∀ s ∈ states ∪ N, s ∉ frontier.erase x ∪ N → nfa.delta s .eps ⊆ states ∪ N := by
        intro s hs hns
        simp only [Finset.mem_union, Finset.mem_erase, not_or, not_and] at hs hns
        rcases hs with hs | hs
        · by_cases hx : s = x
          · subst hx
            intro t ht
            by_cases hts : t ∈ states
            · simp [hts]
            · exact Finset.mem_union_right _ (by rw [← hN]; simp [ht, hts])
          · exact (hclosed s hs (hns.1 hx)).trans Finset.subset_union_left
        · exact absurd hs hns.2
      have h3 : (frontier.erase x ∪ N).card + (nfa.dests \ (states ∪ N)).card < fuel := by
        have h4 : (frontier.erase x ∪ N).card ≤ frontier.card - 1 + N.card := by
          refine (Finset.card_union_le _ _).trans ?_
          rw [Finset.card_erase_of_mem hpf]
        have h5 : nfa.dests \ (states ∪ N) = (nfa.dests \ states) \ N := by
          rw [Finset.sdiff_union_distrib]
          ext t; simp only [Finset.mem_inter, Finset.mem_sdiff]; tauto
        have h6 : ((nfa.dests \ states) \ N).card + N.card = (nfa.dests \ states).card :=
          Finset.card_sdiff_add_card_eq_card hNd
        have h7 : 0 < frontier.card := Finset.card_pos.mpr ⟨x, hpf⟩
        rw [h5]
        omega
      obtain ⟨r1, r2, r3⟩ := ih _ _ h1 h2 h3
      refine ⟨Finset.subset_union_left.trans r1, r2, ?_⟩
      intro t ht
      obtain ⟨s, hs, hr⟩ := r3 t ht
      rcases Finset.mem_union.mp hs with hs | hs
      · exact ⟨s, hs, hr⟩
      · refine ⟨x, hsub hpf, Relation.ReflTransGen.head ?_ hr⟩
        rw [← hN] at hs
        exact (Finset.mem_sdiff.mp hs).1

theorem mem_expand {pick : Finset State → State} (hp : PickOk pick) (nfa : NFA) (S : Finset State)
    (t : State) : t ∈ nfa.expand pick S ↔ ∃ s ∈ S, EpsReach nfa s t := by
  obtain ⟨h1, h2, h3⟩ := expandLoop_spec hp nfa (S.card + nfa.dests.card + 1) S S (subset_refl _)
    (fun s hs hns => absurd hs hns) (by
      have : (nfa.dests \ S).card ≤ nfa.dests.card := Finset.card_le_card Finset.sdiff_subset
      omega)
  constructor
  · exact h3 t
  · rintro ⟨s, hs, hr⟩
    have : s ∈ nfa.expand pick S := h1 hs
    induction hr with
    | refl => exact this
    | tail _ hbc ih => exact h2 _ ih hbc

theorem expand_subset {pick : Finset State → State} (hp : PickOk pick) (nfa : NFA)
    (S : Finset State) : nfa.expand pick S ⊆ S ∪ nfa.dests := by
  intro t ht
  obtain ⟨s, hs, hr⟩ := (mem_expand hp nfa S t).mp ht
  induction hr with
  | refl => simp [hs]
  | tail h hbc ih => exact Finset.mem_union_right _ (delta_subset_dests _ _ _ hbc)

/-- The set of states after reading `w`. -/
def NFA.subset (pick : Finset State → State) (nfa : NFA) (w : List ℕ) : Finset State :=
  w.foldl (fun S c => nfa.next pick S (.chr c)) (nfa.start pick)

theorem subset_snoc (pick : Finset State → State) (nfa : NFA) (w : List ℕ) (c : ℕ) :
    nfa.subset pick (w ++ [c]) = nfa.next pick (nfa.subset pick w) (.chr c) := by
  simp [NFA.subset]

theorem path_epsReach {nfa : NFA} {ts : List (State × Sym × State)} {fs : List State}
    (h : Rep nfa ts fs) {s t u : State} {w : List ℕ} (hp : Path ts s w t) (hr : EpsReach nfa t u) :
    Path ts s w u := by
  induction hr with
  | refl => exact hp
  | tail _ hbc ih => exact Path.eps ih ((h.delta _ _ _).mp hbc)

theorem epsReach_tail {nfa : NFA} {ts : List (State × Sym × State)} {fs : List State}
    (h : Rep nfa ts fs) {pick : Finset State → State} (hp : PickOk pick) {S : Finset State}
    {t u : State} (ht : t ∈ nfa.expand pick S) (hu : (t, Sym.eps, u) ∈ ts) :
    u ∈ nfa.expand pick S := by
  obtain ⟨s, hs, hr⟩ := (mem_expand hp nfa S t).mp ht
  exact (mem_expand hp nfa S u).mpr ⟨s, hs, hr.tail ((h.delta _ _ _).mpr hu)⟩

theorem mem_subset {nfa : NFA} {ts : List (State × Sym × State)} {fs : List State}
    (h : Rep nfa ts fs) {pick : Finset State → State} (hp : PickOk pick) (w : List ℕ) (t : State) :
    t ∈ nfa.subset pick w ↔ Path ts (0, 0) w t := by
  constructor
  · intro ht
    induction w using List.reverseRecOn generalizing t with
    | nil =>
      have ht : t ∈ nfa.expand pick {(0, 0)} := ht
      obtain ⟨s, hs, hr⟩ := (mem_expand hp nfa _ t).mp ht
      rw [Finset.mem_singleton] at hs
      subst hs
      exact path_epsReach h (.nil _) hr
    | append_singleton w c ih =>
      rw [subset_snoc] at ht
      obtain ⟨s, hs, hr⟩ := (mem_expand hp nfa _ t).mp ht
      refine path_epsReach h ?_ hr
      obtain ⟨a, ha, hs⟩ := Finset.mem_biUnion.mp hs
      rcases Finset.mem_union.mp hs with hs | hs
      · exact Path.chr c (ih a ha) ((h.delta _ _ _).mp hs)
      · exact Path.any c (ih a ha) ((h.delta _ _ _).mp hs)
  · intro hpath
    induction hpath with
    | nil => exact (mem_expand hp nfa _ _).mpr ⟨_, Finset.mem_singleton_self _, .refl⟩
    | @eps w t u _ hu ih =>
      induction w using List.reverseRecOn with
      | nil => exact epsReach_tail (S := {(0, 0)}) h hp ih hu
      | append_singleton w c _ =>
        rw [subset_snoc] at ih ⊢
        exact epsReach_tail h hp ih hu
    | @any w t u c _ hu ih =>
      rw [subset_snoc]
      exact (mem_expand hp nfa _ _).mpr ⟨u, Finset.mem_biUnion.mpr ⟨t, ih,
        Finset.mem_union_right _ ((h.delta _ _ _).mpr hu)⟩, .refl⟩
    | @chr w t u c _ hu ih =>
      rw [subset_snoc]
      exact (mem_expand hp nfa _ _).mpr ⟨u, Finset.mem_biUnion.mpr ⟨t, ih,
        Finset.mem_union_left _ ((h.delta _ _ _).mpr hu)⟩, .refl⟩

theorem isFinal_iff {nfa : NFA} {ts : List (State × Sym × State)} {fs : List State}
    (h : Rep nfa ts fs) (S : Finset State) : nfa.isFinal S = true ↔ ∃ t ∈ fs, t ∈ S := by
  unfold NFA.isFinal
  rw [Bool.not_eq_true', decide_eq_false_iff_not, Finset.not_disjoint_iff]
  simp only [h.finals]

theorem mem_inputs {nfa : NFA} {ts : List (State × Sym × State)} {fs : List State}
    (h : Rep nfa ts fs) (S : Finset State) (c : Sym) :
    c ∈ nfa.inputs S ↔ ∃ s ∈ S, ∃ t, (s, c, t) ∈ ts := by
  unfold NFA.inputs
  simp only [Finset.mem_biUnion, List.mem_toFinset, h.inputs]

end Auto
end Verif
