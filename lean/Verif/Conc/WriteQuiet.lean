import Verif.Conc.WriteFind

/-!
# Leaving out threads whose calls have returned
-/

namespace Verif
namespace Conc

open GramSpec WordSetSpec

variable {cf : List Char → List Char} {un : Normalizer} {st : WS} {C : ℕ → Call}

theorem fresh_wstarts {s : Sys} {j : ℕ} (h : (s.pc j).fresh = true) {sched : List ℕ}
    (hj : j ∈ sched) : j ∈ wstarts cf un C s sched := by
  induction sched generalizing s with
  | nil => cases hj
  | cons i sched ih =>
    show j ∈ _ ++ _
    by_cases hij : j = i
    · subst hij; rw [if_pos h]; simp
    · refine List.mem_append_right _ (ih ?_ ?_)
      · rw [Sys.step_pc_other hij]; exact h
      · rcases List.mem_cons.1 hj with h1 | h1
        · exact absurd h1 hij
        · exact h1

theorem fresh_add {c : Call} {p : Pc} (h : p.fresh = true) (ht : Typed c p) (hr : c.removes = false) :
    p = .add .enter := by
  cases p with
  | add p => cases p <;> first | rfl | cases h
  | discard p =>
    cases c with
    | add ord v => exact ht.elim
    | discard ord v => cases hr
    | find ord q k ms => exact ht.elim
  | find p => cases h

theorem wstarts_isAdd {s : Sys} (ht : ∀ j, Typed (C j) (s.pc j)) {sched : List ℕ} {j : ℕ}
    (h : j ∈ wstarts cf un C s sched) (hr : (C j).removes = false) : ∃ ord v, C j = .add ord v := by
  induction sched generalizing s with
  | nil => cases h
  | cons i sched ih =>
    have h : j ∈ (if (s.pc i).fresh = true then [i] else []) ++
      wstarts cf un C (s.step cf un C i) sched := h
    rcases List.mem_append.1 h with h | h
    · split at h
      · rename_i hf
        rw [List.mem_singleton] at h
        subst h
        have h1 := fresh_add hf (ht j) hr
        have h2 := ht j
        rw [h1] at h2
        cases hC : C j with
        | add ord v => exact ⟨ord, v, rfl⟩
        | discard ord v => rw [hC] at h2; exact h2.elim
        | find ord q k ms => rw [hC] at h2; exact h2.elim
      · cases h
    · exact ih (typed_step ht i) h

theorem starts_subset (l : List ℕ) (s : Sys) {j : ℕ} (hj : j ∈ starts cf un C s l) : j ∈ l := by
  induction l generalizing s with
  | nil => cases hj
  | cons a l ih =>
    have hj : j ∈ (if s.pc a = .add .enter then [a] else []) ++ starts cf un C (s.step cf un C a) l := hj
    rcases List.mem_append.1 hj with hj | hj
    · split at hj
      · rw [List.mem_singleton] at hj; rw [hj]; exact List.mem_cons_self
      · cases hj
    · exact List.mem_cons_of_mem _ (ih _ hj)

/-- Threads `F` have returned, or make no step: they can be left out. -/
theorem run_sim {C' : ℕ → Call} {F : ℕ → Bool} (hC : ∀ j, F j = false → C' j = C j)
    (hrem : ∀ j, F j = false → (C j).removes = false) {s s' : Sys} {sched : List ℕ}
    (hm : s'.mem = s.mem) (hp : ∀ j, F j = false → s'.pc j = s.pc j)
    (hd : ∀ j ∈ sched, F j = true → (s.pc j).outcome.isSome = true)
    (ht : ∀ j, Typed (C j) (s.pc j)) (hF : ∀ j, F j = true → (s'.pc j).adding = false)
    (hex : ExclusiveW cf un C s sched) :
    (∀ j, F j = false →
      (s'.run cf un C' (sched.filter fun j => !F j)).pc j = (s.run cf un C sched).pc j) ∧
    Exclusive cf un C' s' (sched.filter fun j => !F j) ∧
    starts cf un C' s' (sched.filter fun j => !F j) = wstarts cf un C s sched := by
  induction sched generalizing s s' with
  | nil => exact ⟨hp, trivial, rfl⟩
  | cons i sched ih =>
    have hd' : ∀ j ∈ sched, F j = true → ((s.step cf un C i).pc j).outcome.isSome = true :=
      fun j hj hFj => returned_step (hd j (List.mem_cons_of_mem _ hj) hFj) (ht j)
    cases hi : F i with
    | true =>
      obtain ⟨r, hr⟩ := Option.isSome_iff_exists.1 (hd i List.mem_cons_self hi)
      have hstep : (s.step cf un C i).mem = s.mem ∧ ∀ j, (s.step cf un C i).pc j = s.pc j := by
        have h1 : callStep cf un s.mem (C i) (s.pc i) = (s.mem, s.pc i) := by
          rcases outcome_some hr with h1 | h1 <;> rw [h1] <;> cases C i <;> rfl
        constructor
        · show (callStep cf un s.mem (C i) (s.pc i)).1 = _
          rw [h1]
        · intro j
          by_cases hj : j = i
          · subst hj
            rw [Sys.step_pc_same, h1]
          · exact Sys.step_pc_other hj
      rw [List.filter_cons_of_neg (by simp [hi])]
      obtain ⟨i1, i2, i3⟩ := ih (s' := s') (s := s.step cf un C i) (by rw [hm, hstep.1])
        (fun j hj => by rw [hp j hj, hstep.2]) hd' (typed_step ht i) hF hex.2
      refine ⟨i1, i2, ?_⟩
      rw [i3]
      show _ = (if (s.pc i).fresh = true then [i] else []) ++ _
      rw [if_neg, List.nil_append]
      rcases outcome_some hr with h1 | h1 <;> rw [h1] <;> simp [Pc.fresh]
    | false =>
      rw [List.filter_cons_of_pos (by simp [hi])]
      have hcall : callStep cf un s'.mem (C' i) (s'.pc i) = callStep cf un s.mem (C i) (s.pc i) := by
        rw [hm, hC i hi, hp i hi]
      obtain ⟨i1, i2, i3⟩ := ih (s' := s'.step cf un C' i) (s := s.step cf un C i)
        (by show (callStep cf un s'.mem (C' i) (s'.pc i)).1 = _; rw [hcall]; rfl)
        (fun j hj => by
          by_cases hji : j = i
          · subst hji; rw [Sys.step_pc_same, Sys.step_pc_same, hcall]
          · rw [Sys.step_pc_other hji, Sys.step_pc_other hji, hp j hj])
        hd' (typed_step ht i)
        (fun j hj => by
          have hji : j ≠ i := by rintro rfl; rw [hi] at hj; cases hj
          rw [Sys.step_pc_other hji]; exact hF j hj) hex.2
      refine ⟨i1, ⟨?_, i2⟩, ?_⟩
      · intro ha j hj
        cases hFj : F j with
        | true => exact hF j hFj
        | false =>
          rw [hp j hFj]
          have hw : (s.pc j).writing = false := by
            refine hex.1 ?_ j hj
            rw [hC i hi] at ha
            revert ha
            cases C i <;> intro ha <;> first | rfl | cases ha
          revert hw
          cases s.pc j with
          | add p => cases p <;> intro hw <;> first | rfl | cases hw
          | discard p => intro _; rfl
          | find p => intro _; rfl
      · show (if s'.pc i = .add .enter then [i] else []) ++ _ =
          (if (s.pc i).fresh = true then [i] else []) ++ _
        rw [i3, hp i hi]
        congr 1
        by_cases hf : (s.pc i).fresh = true
        · rw [if_pos hf, if_pos (fresh_add hf (ht i) (hrem i hi))]
        · rw [if_neg hf, if_neg]
          intro h
          rw [h] at hf
          exact hf rfl

end Conc
end Verif
