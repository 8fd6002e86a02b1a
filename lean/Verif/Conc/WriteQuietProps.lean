import Verif.Conc.WriteQuiet
import Verif.Conc.WriteFindProps

/-!
# `find_similar` while no word is being discarded: property C188
-/

namespace Verif
namespace Conc

open GramSpec WordSetSpec

variable {cf : List Char → List Char} {un : Normalizer}

/-- Words may be added and discarded, one at a time. A call of `find_similar` that no call of `discard`
overlaps raises `RuntimeError` (only without a filter), or it returns (or raises) exactly what it would after
some of the calls: all that had returned before it began, and perhaps some that add words. -/
theorem C188_find_between_discards {st : WS} (h : WSReachable cf un st) {C : ℕ → Call}
    (hfair : ∀ i, (C i).Fair) {before during : List ℕ}
    (hex : ExclusiveW cf un C (Sys.start C st) (before ++ during))
    (hquiet : ∀ j ∈ wstarts cf un C (Sys.start C st) (before ++ during), (C j).removes = true →
      (((Sys.start C st).run cf un C before).pc j).outcome.isSome = true) {i : ℕ}
    {ord : List (List Char) → List (List Char)} {q k : PyVal} {ms : MinSim}
    (hC : C i = .find ord q k ms) (hi : i ∉ before) {r : Except Err (List (List Char × ℚ))}
    (hr : ((Sys.start C st).run cf un C (before ++ during)).pc i = .find (.done r)) :
    (filterSize st.sizes = none ∧ r = .error .runtimeError) ∨
    ∃ js : List ℕ, js.Sublist (wstarts cf un C (Sys.start C st) (before ++ during)) ∧
      (∀ j ∈ wstarts cf un C (Sys.start C st) before,
        (((Sys.start C st).run cf un C before).pc j).outcome.isSome = true → j ∈ js) ∧
      r = ((st.run cf un (js.map fun j => (C j).op)).findSimilar cf un q k ms).mapError .py := by
  obtain ⟨Es, hEs, hEm⟩ := h.rep
  rw [exclusiveW_append] at hex
  rw [wstarts_append] at hquiet ⊢
  have hrun : (Sys.start C st).run cf un C (before ++ during) =
      ((Sys.start C st).run cf un C before).run cf un C during := by
    unfold Sys.run; rw [List.foldl_append]
  rw [hrun] at hr
  obtain ⟨E, H, g⟩ := (WInv.start (C := C) hEs).run hfair hex.1
  rw [List.nil_append] at g
  have hrep : Rep cf un st (mems Es) := ⟨Es, hEs, rfl⟩
  -- the thread has not begun
  have hpc : ((Sys.start C st).run cf un C before).pc i = .find .enter := by
    have : ∀ (l : List ℕ) (s : Sys), i ∉ l → (s.run cf un C l).pc i = s.pc i := by
      intro l
      induction l with
      | nil => intro s _; rfl
      | cons j l ih =>
        intro s hl
        rw [List.mem_cons, not_or] at hl
        show ((s.step cf un C j).run cf un C l).pc i = _
        rw [ih _ hl.2, Sys.step_pc_other hl.1]
    rw [this before _ hi]
    show (C i).pc = _
    rw [hC]; rfl
  generalize hL : wstarts cf un C (Sys.start C st) before = L at *
  generalize hs : (Sys.start C st).run cf un C before = s at *
  clear hs hL
  -- the calls that are left out
  obtain ⟨F, hF⟩ : ∃ F : ℕ → Bool, F = fun j => (s.pc j).outcome.isSome || (C j).removes := ⟨_, rfl⟩
  obtain ⟨C', hC'⟩ : ∃ C' : ℕ → Call, C' = fun j => if F j = true then .find ord q k ms else C j :=
    ⟨_, rfl⟩
  obtain ⟨s', hs'⟩ : ∃ s' : Sys, s' = ⟨s.mem, fun j => if F j = true then .find .enter else s.pc j⟩ :=
    ⟨_, rfl⟩
  have hCF : ∀ j, F j = false → C' j = C j := fun j hj => by rw [hC']; simp [hj]
  have hpF : ∀ j, F j = false → s'.pc j = s.pc j := fun j hj => by rw [hs']; simp [hj]
  have hpT : ∀ j, F j = true → s'.pc j = .find .enter := fun j hj => by rw [hs']; simp [hj]
  have hsm : s'.mem = s.mem := by rw [hs']
  have hFo : ∀ j, F j = false → (s.pc j).outcome = none ∧ (C j).removes = false := by
    intro j hj
    rw [hF] at hj
    simpa using hj
  have hFi : F i = false := by rw [hF]; simp [hpc, hC, Pc.outcome, Call.removes]
  have hfair' : ∀ j, (C' j).Fair := by
    intro j
    rw [hC']
    show Call.Fair (if _ then _ else _)
    split
    · have := hfair i; rwa [hC] at this
    · exact hfair j
  have hrem' : ∀ j, (C' j).removes = false := by
    intro j
    cases hj : F j with
    | true => rw [hC']; simp [hj, Call.removes]
    | false => rw [hCF j hj]; exact (hFo j hj).2
  have htyped' : ∀ j, Typed (C' j) (s'.pc j) := by
    intro j
    cases hj : F j with
    | true => rw [hpT j hj, hC']; simp [hj, Typed]
    | false => rw [hCF j hj, hpF j hj]; exact g.typed j
  -- no call of `discard` is in progress
  have hnodisc : ∀ j p, s.pc j = .discard p → (s.pc j).writing = false := by
    intro j p hp
    have hph := g.phase
    generalize hE : E = E' at hph
    generalize hH : H = H' at hph
    generalize hLL : L = L' at hph
    cases hph with
    | idle h1 h2 h3 => exact h3 j
    | @adding L0 E0 H0 i' e p' h1 h2 h3 h4 h5 =>
      by_cases hj : j = i'
      · subst hj; rw [h2] at hp; cases hp
      · exact h5 j hj
    | @removing L0 E0 H0 i' e p' h1 h2 h3 h4 h5 h6 h7 h8 h9 =>
      have hi' : (s.pc i').outcome.isSome = true := by
        refine hquiet i' ?_ ?_
        · rw [hLL]; simp
        · have := g.typed i'
          rw [h3] at this
          revert this
          cases C i' with
          | add ord v => intro h; exact h.elim
          | discard ord v => intro _; rfl
          | find ord q k ms => intro h; exact h.elim
      have := writing_of_returned hi'
      rw [h3, h1.writing] at this; cases this
  have hd : ∀ j ∈ during, F j = true → (s.pc j).outcome.isSome = true := by
    intro j hj hFj
    by_cases ho : (s.pc j).outcome.isSome = true
    · exact ho
    have hrm : (C j).removes = true := by
      rw [hF] at hFj
      rw [Bool.or_eq_true] at hFj
      exact hFj.resolve_left ho
    have ht := g.typed j
    cases hCj : C j with
    | add o v => rw [hCj] at hrm; cases hrm
    | find o q k ms => rw [hCj] at hrm; cases hrm
    | discard o v =>
      cases hp : s.pc j with
      | add p => rw [hCj, hp] at ht; exact ht.elim
      | find p => rw [hCj, hp] at ht; exact ht.elim
      | discard p =>
        have hw := hnodisc j p hp
        have hfr : (s.pc j).fresh = true := by
          rw [hp] at hw ho ⊢
          unfold Pc.writing at hw
          cases p with
          | enter => rfl
          | done r => exact absurd rfl ho
          | _ => cases hw
        have := hquiet j (List.mem_append_right _ (fresh_wstarts hfr hj)) (by rw [hCj]; rfl)
        rw [← hp]; exact this
  have hadF : ∀ j, F j = true → (s'.pc j).adding = false := fun j hj => by rw [hpT j hj]; rfl
  obtain ⟨r1, r2, r3⟩ := run_sim (cf := cf) (un := un) hCF (fun j hj => (hFo j hj).2) hsm hpF hd g.typed
    hadF hex.2
  -- the invariant of the calls that remain
  obtain ⟨L0, E0, G, hLs, habs0, hwords, hG, hinv⟩ : ∃ L0 E0 G, L = L0 ++ G.map (fun p => p.1) ∧
      mems E0 = membersAfter cf un st C (mems Es) L0 ∧
      (∀ j ∈ G.map (fun p : ℕ × Option Entry => p.1), (C' j).word = (C j).word ∧
        (C j).op = .add (C j).word) ∧
      (∀ j ∈ G.map (fun p : ℕ × Option Entry => p.1), (s.pc j).outcome.isSome = false) ∧
      SInv cf un st C' E0 s' G := by
    have hadd : ∀ j, (s.pc j).writing = false → (s'.pc j).adding = false := by
      intro j hw
      cases hj : F j with
      | true => exact hadF j hj
      | false =>
        rw [hpF j hj]
        revert hw
        cases s.pc j with
        | add p => cases p <;> intro hw <;> first | rfl | cases hw
        | discard p => intro _; rfl
        | find p => intro _; rfl
    have hres : ∀ j r, s'.pc j = .add (.done r) → False := by
      intro j r hjr
      cases hj : F j with
      | true => rw [hpT j hj] at hjr; cases hjr
      | false =>
        rw [hpF j hj] at hjr
        have := (hFo j hj).1
        rw [hjr] at this; cases this
    have hph := g.phase
    generalize hLL : L = L' at hph
    generalize hE : E = E' at hph
    generalize hH : H = H' at hph
    cases hph with
    | idle h1 h2 h3 =>
      subst hLL hE hH
      refine ⟨L, E, [], by simp, g.abs, by simp, by simp, trivial, by rw [entries_nil]; exact g.good,
        htyped', Or.inl ⟨by rw [entries_nil, hsm]; exact h1, fun j => hadd j (h3 j)⟩,
        fun j r hjr => (hres j r hjr).elim⟩
    | @adding L0 E0 H0 i' e p' h1 h2 h3 h4 h5 =>
      subst hLL hE hH
      have hty := g.typed i'
      rw [h2] at hty
      obtain ⟨o, v, hCi⟩ : ∃ o v, C i' = .add o v := by
        revert hty
        cases C i' with
        | add ord v => intro _; exact ⟨_, _, rfl⟩
        | discard ord v => intro h; exact h.elim
        | find ord q k ms => intro h; exact h.elim
      have hout : (s.pc i').outcome.isSome = false := by
        rw [h2]
        cases p' with
        | done r => exact h1.elim
        | _ => rfl
      have hFi' : F i' = false := by rw [hF]; simp only [hout, hCi]; rfl
      refine ⟨L0, E0, [(i', some e)], by simp, h4, ?_, ?_, ?_⟩
      · intro j hj
        simp only [List.map_cons, List.map_nil, List.mem_singleton] at hj
        subst hj
        rw [hCF j hFi', hCi]
        exact ⟨rfl, rfl⟩
      · intro j hj
        simp only [List.map_cons, List.map_nil, List.mem_singleton] at hj
        subst hj
        exact hout
      · have hent : entries E0 [(i', some e)] = E0 ++ [e] := by simp [entries]
        refine ⟨⟨?_, trivial⟩, by rw [hent]; exact g.good, htyped',
          Or.inr ⟨i', [], e, p', rfl, by rw [entries_nil, hsm]; exact h1, by rw [hpF i' hFi', h2], ?_,
            fun j hj => hadd j (h5 j hj)⟩, fun j r hjr => (hres j r hjr).elim⟩
        · have hab := g.abs
          rw [membersAfter_snoc, ← h4, hCi] at hab
          rw [hCF i' hFi', hCi]
          exact hab.symm
        · rw [entries_nil, hCF i' hFi']
          exact h3
    | @removing L0 E0 H0 i' e p' h1 h2 h3 h4 h5 h6 h7 h8 h9 =>
      have := hnodisc i' p' h3
      rw [h3, h1.writing] at this; cases this
  have hpc' : s'.pc i = .find .enter := by rw [hpF i hFi, hpc]
  have hCi' : C' i = .find ord q k ms := by rw [hCF i hFi, hC]
  rcases hinv.find_result hfair' hrem' r2 hCi' hpc' (by rw [r1 i hFi]; exact hr) with
    ⟨hf, hrt⟩ | ⟨js, j1, _, j3⟩
  · exact Or.inl ⟨hinv.good.filterSize_none hf, hrt⟩
  · rw [r3] at j1
    refine Or.inr ⟨L0 ++ js, ?_, ?_, ?_⟩
    · rw [hLs, List.append_assoc]
      exact (List.Sublist.refl _).append j1
    · intro j hj ho
      rw [hLs] at hj
      rcases List.mem_append.1 hj with hj | hj
      · exact List.mem_append_left _ hj
      · rw [hG j hj] at ho; cases ho
    · rw [j3]
      congr 1
      obtain ⟨h4, h5⟩ := hrep.run ((L0 ++ js).map (fun j => (C j).op))
      rw [h4.findSimilar, h5.key, h5.2.1]
      congr 1
      rw [List.map_append]
      have habs : ∀ (s : List Member) (a b : List WSOp),
          absRun (st.key cf un) (sizesOf st) s (a ++ b) =
            absRun (st.key cf un) (sizesOf st) (absRun (st.key cf un) (sizesOf st) s a) b := by
        intro s a b; unfold absRun; rw [List.foldl_append]
      show _ = absRun (st.key cf un) (sizesOf st) (mems Es) _
      rw [habs]
      show _ = absRun (st.key cf un) (sizesOf st) (membersAfter cf un st C (mems Es) L0) _
      rw [← habs0]
      congr 1
      apply List.map_congr_left
      intro j hj
      rcases List.mem_append.1 (j1.subset hj) with hj | hj
      · rw [(hwords j hj).1, (hwords j hj).2]
      · have hFj : F j = false := by
          rw [← r3] at hj
          simpa using (List.mem_filter.1 (starts_subset _ _ hj)).2
        obtain ⟨o, v, hCj⟩ := wstarts_isAdd g.typed hj (hFo j hFj).2
        rw [hCF j hFj, hCj]
        rfl

/-- Threads 1 and 2 have added and discarded a word; while thread 0 looks for similar words, thread 3 adds
one. -/
def quietDuring (n : ℕ) : List ℕ := List.replicate n 0 ++ List.replicate 25 3 ++ List.replicate 25 0

theorem quiet_exclusive (n : ℕ) (hn : n < 10) : ExclusiveW (List.map Char.toLower) none writeCalls
    (Sys.start writeCalls demoState) ((List.replicate 20 1 ++ List.replicate 30 2) ++ quietDuring n) := by
  have : ∀ n < 10, exclusiveWB (List.map Char.toLower) none writeCalls 5 (Sys.start writeCalls demoState)
    ((List.replicate 20 1 ++ List.replicate 30 2) ++ quietDuring n) = true := by decide +kernel
  exact exclusiveW_of_test writeCalls_isWriter (typed_start _ _) (this n hn)

example : ∃ js : List ℕ, js.Sublist [1, 2, 3] ∧ 1 ∈ js ∧ 2 ∈ js ∧
    (((Sys.start writeCalls demoState).run (List.map Char.toLower) none writeCalls
      ((List.replicate 20 1 ++ List.replicate 30 2) ++ quietDuring 2)).pc 0) =
      .find (.done (((demoState.run (List.map Char.toLower) none
        (js.map fun j => (writeCalls j).op)).findSimilar (List.map Char.toLower) none
          (.str ['a', 'b', 'c']) (.int 5) .none).mapError .py)) := by
  have hr : ((Sys.start writeCalls demoState).run (List.map Char.toLower) none writeCalls
      ((List.replicate 20 1 ++ List.replicate 30 2) ++ quietDuring 2)).pc 0 =
      .find (.done (.ok [(['a', 'b'], 23 / 42), (['a', 'x'], 2 / 7)])) := by decide +kernel
  rcases C188_find_between_discards demoState_reach writeCalls_fair (quiet_exclusive 2 (by omega))
    (by decide +kernel) (i := 0) rfl (by decide) hr with ⟨hf, _⟩ | ⟨js, h1, h2, h3⟩
  · exact absurd hf (by decide +kernel)
  · refine ⟨js, h1.trans (by decide +kernel), h2 1 (by decide +kernel) (by decide +kernel),
      h2 2 (by decide +kernel) (by decide +kernel), ?_⟩
    rw [hr, h3]

end Conc
end Verif
