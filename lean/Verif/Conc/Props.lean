import Verif.Conc.System

/-!
# `WordSet` used by several threads: properties C159, C160
-/

namespace Verif
namespace Conc

open GramSpec WordSetSpec

variable {cf : List Char → List Char} {un : Normalizer}

/-! ## C159 -/

/-- `find_similar` while other threads add words, one at a time: either there is no filter and it raises
`RuntimeError`, or it returns (or raises) exactly what it would on the set to which only some of the
words had been added — those whose `add` had returned before the call, and perhaps some others. -/
theorem C159_find_while_adding {st : WS} (h : WSReachable cf un st) {C : ℕ → Call}
    (hfair : ∀ i, (C i).Fair) (hrem : ∀ i, (C i).removes = false) {before during : List ℕ}
    (hex : Exclusive cf un C (Sys.start C st) (before ++ during)) {i : ℕ}
    {ord : List (List Char) → List (List Char)} {q k : PyVal} {ms : MinSim}
    (hC : C i = .find ord q k ms) (hi : i ∉ before) {r : Except Err (List (List Char × ℚ))}
    (hr : ((Sys.start C st).run cf un C (before ++ during)).pc i = .find (.done r)) :
    (filterSize st.sizes = none ∧ r = .error .runtimeError) ∨
    ∃ js : List ℕ, js.Sublist (starts cf un C (Sys.start C st) (before ++ during)) ∧
      (∀ j ∈ starts cf un C (Sys.start C st) before,
        (((Sys.start C st).run cf un C before).pc j).added = true → j ∈ js) ∧
      r = ((st.run cf un (js.map fun j => .add (C j).word)).findSimilar cf un q k ms).mapError
        .py := by
  obtain ⟨Es, hEs, hEm⟩ := h.rep
  rw [exclusive_append] at hex
  rw [starts_append]
  have hrun : (Sys.start C st).run cf un C (before ++ during) =
      ((Sys.start C st).run cf un C before).run cf un C during := by
    unfold Sys.run; rw [List.foldl_append]
  rw [hrun] at hr
  obtain ⟨GA, g1, g2⟩ := (SInv.start (C := C) hEs).run hfair hrem hex.1
  rw [List.nil_append] at g2
  -- the thread has not begun
  have hpc : ((Sys.start C st).run cf un C before).pc i = .find .enter := by
    have : ∀ (l : List ℕ) (s : Sys), i ∉ l → (s.run cf un C l).pc i = s.pc i := by
      intro l
      induction l with
      | nil => intro s _; rfl
      | cons j l ih =>
        intro s hl
        rw [List.mem_cons, not_or] at hl
        show ((s.step cf un C j).run cf un C l).pc i = _
        rw [ih _ hl.2, Sys.step_pc_other hl.1]
    rw [this before _ hi]
    show (C i).pc = _
    rw [hC]; rfl
  rcases g2.find_result hfair hrem hex.2 hC hpc hr with ⟨hf, hrt⟩ | ⟨js, h1, h2, h3⟩
  · exact Or.inl ⟨g2.good.filterSize_none hf, hrt⟩
  · rw [g1] at h1 h2
    refine Or.inr ⟨js, h1, h2, ?_⟩
    rw [h3]
    congr 1
    have hrep : Rep cf un st (mems Es) := ⟨Es, hEs, rfl⟩
    obtain ⟨h4, h5⟩ := hrep.run (js.map (fun j => .add (C j).word))
    rw [h4.findSimilar, h5.key, h5.2.1]

/-- Two threads add words while a third looks for similar ones. -/
def demoCalls : ℕ → Call
  | 1 => .add id (.str ['a', 'x'])
  | 2 => .add List.reverse (.str ['b', 'c'])
  | _ => .find id (.str ['a', 'b', 'c']) (.int 5) .none

/-- A set with one word and bigrams. -/
def demoState : WS := demoSet (List.map Char.toLower) true [2] [['a', 'b']]

theorem demoState_reach : WSReachable (List.map Char.toLower) none demoState :=
  demoSet_reachable (by decide +kernel) _

theorem demoCalls_fair : ∀ i, (demoCalls i).Fair := by
  intro i
  rcases i with _ | _ | _ | i
  · exact fun l => List.Perm.refl l
  · exact fun l => List.Perm.refl l
  · exact fun l => List.reverse_perm l
  · exact fun l => List.Perm.refl l

theorem demoCalls_keep : ∀ i, (demoCalls i).removes = false := by
  intro i; rcases i with _ | _ | _ | i <;> rfl

theorem demoCalls_isAdd : ∀ j, 3 ≤ j → (demoCalls j).isAdd = false := by
  intro j hj
  rcases j with _ | _ | _ | j
  · omega
  · omega
  · omega
  · rfl

/-- Thread 1 adds its word; then thread 0 begins, and thread 2 adds its word meanwhile. -/
def demoBefore : List ℕ := List.replicate 20 1

/-- See `demoBefore`. -/
def demoDuring : List ℕ := List.replicate 6 0 ++ List.replicate 20 2 ++ List.replicate 20 0

theorem demo_exclusive : Exclusive (List.map Char.toLower) none demoCalls
    (Sys.start demoCalls demoState) (demoBefore ++ demoDuring) :=
  exclusive_of_test demoCalls_isAdd (typed_start _ _) (by decide +kernel)

example : ∃ js : List ℕ, js.Sublist [1, 2] ∧ 1 ∈ js ∧
    (((Sys.start demoCalls demoState).run (List.map Char.toLower) none demoCalls
      (demoBefore ++ demoDuring)).pc 0) = .find (.done (((demoState.run (List.map Char.toLower) none
        (js.map fun j => .add (demoCalls j).word)).findSimilar (List.map Char.toLower) none
          (.str ['a', 'b', 'c']) (.int 5) .none).mapError .py)) := by
  have hr : ((Sys.start demoCalls demoState).run (List.map Char.toLower) none demoCalls
      (demoBefore ++ demoDuring)).pc 0 = .find (.done (.ok [(['a', 'b'], 23 / 42),
        (['b', 'c'], 23 / 42), (['a', 'x'], 2 / 7)])) := by decide +kernel
  rcases C159_find_while_adding demoState_reach demoCalls_fair demoCalls_keep demo_exclusive
    (i := 0) rfl (by decide) hr with ⟨hf, _⟩ | ⟨js, h1, h2, h3⟩
  · exact absurd hf (by decide +kernel)
  · refine ⟨js, h1.trans (by decide +kernel), h2 1 (by decide +kernel) (by decide +kernel), ?_⟩
    rw [hr, h3]

/-! ## C160 -/

/-- Calls of `add` that do not overlap behave as one after another, whatever other threads do in
`find_similar` meanwhile: each returns (or raises) what it would in that order, and as soon as none is in
progress, all further calls do. -/
theorem C160_adds_in_order {st : WS} (h : WSReachable cf un st) {C : ℕ → Call}
    (hfair : ∀ i, (C i).Fair) (hrem : ∀ i, (C i).removes = false) {sched : List ℕ}
    (hex : Exclusive cf un C (Sys.start C st) sched) :
    (∀ j r, ((Sys.start C st).run cf un C sched).pc j = .add (.done r) →
      ∃ a b, starts cf un C (Sys.start C st) sched = a ++ j :: b ∧
        r = ((st.run cf un (a.map fun j => .add (C j).word)).add cf un (C j).word).2) ∧
    ((∀ j, (((Sys.start C st).run cf un C sched).pc j).adding = false) → ∀ ops,
      ((Sys.start C st).run cf un C sched).mem.view.outputs cf un ops =
        (st.run cf un ((starts cf un C (Sys.start C st) sched).map fun j =>
          .add (C j).word)).outputs cf un ops) := by
  obtain ⟨Es, hEs, hEm⟩ := h.rep
  obtain ⟨G, g1, g2⟩ := (SInv.start (C := C) hEs).run hfair hrem hex
  rw [List.nil_append] at g2
  have hrep : Rep cf un st (mems Es) := ⟨Es, hEs, rfl⟩
  constructor
  · intro j r hr
    obtain ⟨G0, o, G1, h1, h2⟩ := g2.res j r hr
    refine ⟨G0.map (fun p => p.1), G1.map (fun p => p.1), by rw [← g1, h1]; simp, ?_⟩
    have hv := g2.valid
    rw [h1, valid_append] at hv
    obtain ⟨h3, h4⟩ := hrep.run ((G0.map (fun p => p.1)).map (fun j => .add (C j).word))
    rw [(h3.add _).2.1, h4.key, valid_run _ hv.1, h2]
  · intro hno ops
    rcases g2.mem with ⟨h1, _⟩ | ⟨i, G0, e, p, _, h2, h3, _⟩
    · have hr : Rep cf un ((Sys.start C st).run cf un C sched).mem.view (mems (entries Es G)) :=
        ⟨_, h1.rep g2.good, rfl⟩
      obtain ⟨h3, h4⟩ := hrep.run ((G.map (fun p => p.1)).map (fun j => .add (C j).word))
      rw [valid_run _ g2.valid] at h3
      rw [← g1, hr.outputs, h3.outputs, h4.key, h4.2.1]
      have hl := h1.1.like
      rw [show ((Sys.start C st).run cf un C sched).mem.view.nList = st.nList from hl.2.1]
      unfold WS.key
      rw [show ((Sys.start C st).run cf un C sched).mem.view.caseSensitive = st.caseSensitive
        from hl.1]
    · have := hno i
      rw [h3, h2.adding] at this
      cases this

example (ops : List WSOp) :
    ((Sys.start demoCalls demoState).run (List.map Char.toLower) none demoCalls
      (demoBefore ++ demoDuring)).mem.view.outputs (List.map Char.toLower) none ops =
    (demoState.run (List.map Char.toLower) none [.add (.str ['a', 'x']), .add (.str ['b', 'c'])]).outputs
      (List.map Char.toLower) none ops := by
  have h := (C160_adds_in_order demoState_reach demoCalls_fair demoCalls_keep demo_exclusive).2
    (fun j => by
      by_cases hj : j < 3
      · have : ∀ j < 3, ((((Sys.start demoCalls demoState).run (List.map Char.toLower) none demoCalls
          (demoBefore ++ demoDuring)).pc j)).adding = false := by decide +kernel
        exact this j hj
      · have ht : Typed (demoCalls j) (((Sys.start demoCalls demoState).run (List.map Char.toLower)
            none demoCalls (demoBefore ++ demoDuring)).pc j) := by
          generalize demoBefore ++ demoDuring = l
          have : ∀ (s : Sys), (∀ j, Typed (demoCalls j) (s.pc j)) →
              Typed (demoCalls j) ((s.run (List.map Char.toLower) none demoCalls l).pc j) := by
            induction l with
            | nil => intro s hs; exact hs j
            | cons i l ih => intro s hs; exact ih _ (typed_step hs i)
          exact this _ (typed_start _ _)
        have hc : demoCalls j = .find id (.str ['a', 'b', 'c']) (.int 5) .none := by
          rcases j with _ | _ | _ | j
          · omega
          · omega
          · omega
          · rfl
        rw [hc] at ht
        revert ht
        cases ((Sys.start demoCalls demoState).run (List.map Char.toLower) none demoCalls
          (demoBefore ++ demoDuring)).pc j with
        | find p => intro _; rfl
        | add p => intro ht; exact ht.elim
        | discard p => intro ht; exact ht.elim) ops
  have hs : starts (List.map Char.toLower) none demoCalls (Sys.start demoCalls demoState)
      (demoBefore ++ demoDuring) = [1, 2] := by decide +kernel
  rw [hs] at h
  exact h

end Conc
end Verif
