import Verif.Edit.EedSpec
import Verif.Edit.Lemmas
import Mathlib.Tactic.Linarith
import Mathlib.Tactic.FieldSimp

/-!
# Lemmas about the extended edit distance
-/

namespace Verif
namespace Edit

open EedSpec

variable {α : Type} [DecidableEq α]

/-- The row computed from the row `f` for the reference character `r`. -/
def eedCell (c : EedCosts) (hyp : List α) (r : α) (f : Nat → ℚ) : Nat → ℚ
  | 0 => f 0 + 1
  | j + 1 => min (min (eedCell c hyp r f j + c.deletion)
      (f j + (if hyp[j]? = some r then 0 else c.substitution))) (f (j + 1) + c.insertion)

theorem eedCells_ok (c : EedCosts) (hyp : List α) (r : α) (f u : Nat → ℚ) (pre cs : List α)
    (h : hyp = pre ++ cs) (hu : ∀ j, j ≤ pre.length → u j = eedCell c hyp r f j) :
    eedCells c r (tabulate (hyp.length + 1) f) cs pre.length (tabulate (hyp.length + 1) u) =
      .ok (tabulate (hyp.length + 1) (eedCell c hyp r f)) := by
  induction cs generalizing pre u with
  | nil =>
    rw [eedCells]
    congr 1
    refine tabulate_congr (fun j hj => hu j ?_)
    rw [h] at hj
    simp at hj
    omega
  | cons a cs ih =>
    have hl : pre.length < hyp.length := by rw [h]; simp
    have hget : hyp[pre.length]? = some a := by rw [h]; simp
    have ih' := ih (Function.update u (pre.length + 1) (eedCell c hyp r f (pre.length + 1)))
      (pre ++ [a]) (by rw [h]; simp) (by
        intro j hj
        simp only [List.length_append, List.length_singleton] at hj
        by_cases hj' : j = pre.length + 1
        · subst hj'; simp
        · rw [Function.update_of_ne hj']
          exact hu j (by omega))
    rw [eedCells]
    rw [pyGet_tabulate _ (by omega), pyGet_tabulate _ (by omega), pyGet_tabulate _ (by omega)]
    simp only [bind, Except.bind]
    rw [pySet_tabulate _ _ (by omega)]
    have he : eedCell c hyp r f (pre.length + 1) =
        min (min (u pre.length + c.deletion) (f pre.length + if r = a then 0 else c.substitution))
          (f (pre.length + 1) + c.insertion) := by
      rw [eedCell, hget, hu _ (le_refl _)]
      simp only [Option.some.injEq, eq_comm]
    rw [he] at ih'
    simpa using ih'

theorem eedNext_ok (c : EedCosts) (inf : ℚ) (hyp : List α) (r : α) (f : Nat → ℚ) :
    eedNext c inf hyp r (tabulate (hyp.length + 1) f) =
      .ok (tabulate (hyp.length + 1) (eedCell c hyp r f)) := by
  unfold eedNext
  rw [pyGet_tabulate _ (by omega), replicate_tabulate]
  simp only [bind, Except.bind]
  rw [pySet_tabulate _ _ (by omega)]
  simp only
  refine eedCells_ok c hyp r f _ [] hyp rfl ?_
  intro j hj
  simp only [List.length_nil, Nat.le_zero] at hj
  subst hj
  simp [eedCell]

section
variable {c : EedCosts} {isspace : α → Bool} {hyp ref : List α}

omit [DecidableEq α] in
theorem before_le {i j : Nat} {x : ℚ} (h : Before c (isspace · = true) hyp ref i j x) :
    j ≤ hyp.length := by
  cases h with
  | border => omega
  | skip h => omega
  | same _ h => have := (List.getElem?_eq_some_iff.mp h).1; omega
  | subst _ h => have := (List.getElem?_eq_some_iff.mp h).1; omega
  | read _ h => omega

theorem eedCell_least {i : Nat} {r : α} (hr : ref[i]? = some r) {f : Nat → ℚ}
    (hf : ∀ j, j ≤ hyp.length → IsLeast {x | After c (isspace · = true) hyp ref i j x} (f j)) (j : Nat)
    (hj : j ≤ hyp.length) :
    IsLeast {x | Before c (isspace · = true) hyp ref (i + 1) j x} (eedCell c hyp r f j) := by
  have hi : i < ref.length := (List.getElem?_eq_some_iff.mp hr).1
  induction j with
  | zero =>
    constructor
    · exact Before.border hi (hf 0 hj).1
    · rintro x hx
      cases hx with
      | border _ h => have := (hf 0 hj).2 h; simp only [eedCell]; linarith
  | succ j ih =>
    have ih := ih (by omega)
    have hget : hyp[j]? = some hyp[j] := List.getElem?_eq_getElem (by omega)
    constructor
    · rw [eedCell]
      rcases min_choice (min (eedCell c hyp r f j + c.deletion)
        (f j + (if hyp[j]? = some r then 0 else c.substitution))) (f (j + 1) + c.insertion) with h | h
      · rw [h]
        rcases min_choice (eedCell c hyp r f j + c.deletion)
          (f j + (if hyp[j]? = some r then 0 else c.substitution)) with h | h
        · rw [h]; exact Before.skip (by omega) ih.1
        · rw [h]
          by_cases hs : hyp[j]? = some r
          · rw [if_pos hs, add_zero]
            exact Before.same hr hs (hf j (by omega)).1
          · rw [if_neg hs]
            refine Before.subst hr hget ?_ (hf j (by omega)).1
            rintro he
            exact hs (by rw [hget, he])
      · rw [h]; exact Before.read hi (by omega) (hf (j + 1) hj).1
    · intro x hx
      rw [eedCell]
      cases hx with
      | skip _ h =>
        have := ih.2 h
        exact (min_le_left _ _).trans ((min_le_left _ _).trans (by linarith))
      | @same _ _ _ a h1 h2 h =>
        have h3 : a = r := by rw [hr] at h1; simpa using h1.symm
        subst h3
        have := (hf j (by omega)).2 h
        refine (min_le_left _ _).trans ((min_le_right _ _).trans ?_)
        rw [if_pos h2]; linarith
      | @subst _ _ y a b h1 h2 hab h =>
        have h3 : a = r := by rw [hr] at h1; simpa using h1.symm
        subst h3
        have := (hf j (by omega)).2 h
        refine (min_le_left _ _).trans ((min_le_right _ _).trans ?_)
        rw [if_neg (by rw [h2]; simpa using Ne.symm hab)]; linarith
      | read _ _ h =>
        have := (hf (j + 1) hj).2 h
        exact (min_le_right _ _).trans (by linarith)

end

theorem pyMinPair_fold (ps : List (ℚ × Nat)) (p : ℚ × Nat) :
    let m := ps.foldl (fun m q => if q.1 < m.1 ∨ (q.1 = m.1 ∧ q.2 < m.2) then q else m) p
    m ∈ p :: ps ∧ ∀ q ∈ p :: ps, m.1 ≤ q.1 ∧ (q.1 = m.1 → m.2 ≤ q.2) := by
  induction ps generalizing p with
  | nil => simp
  | cons q ps ih =>
    simp only [List.foldl_cons]
    have h := ih (if q.1 < p.1 ∨ (q.1 = p.1 ∧ q.2 < p.2) then q else p)
    simp only at h
    generalize hm : List.foldl (fun m q => if q.1 < m.1 ∨ (q.1 = m.1 ∧ q.2 < m.2) then q else m)
      (if q.1 < p.1 ∨ (q.1 = p.1 ∧ q.2 < p.2) then q else p) ps = m at h ⊢
    obtain ⟨h1, h2⟩ := h
    by_cases hc : q.1 < p.1 ∨ (q.1 = p.1 ∧ q.2 < p.2)
    · rw [if_pos hc] at h1 h2
      refine ⟨List.mem_cons_of_mem _ h1, ?_⟩
      intro s hs
      rcases List.mem_cons.mp hs with rfl | hs
      · obtain ⟨h3, h4⟩ := h2 q (by simp)
        rcases hc with hc | ⟨hc, hc'⟩
        · exact ⟨by linarith, fun he => by linarith⟩
        · refine ⟨by linarith, fun he => ?_⟩
          have := h4 (by rw [hc, he])
          omega
      · exact h2 s hs
    · rw [if_neg hc] at h1 h2
      refine ⟨?_, ?_⟩
      · rcases List.mem_cons.mp h1 with h | h
        · rw [h]; simp
        · simp [h]
      · intro s hs
        rcases List.mem_cons.mp hs with rfl | hs
        · exact h2 _ (by simp)
        rcases List.mem_cons.mp hs with rfl | hs
        · obtain ⟨h3, h4⟩ := h2 p (by simp)
          push Not at hc
          refine ⟨by linarith [hc.1], fun he => ?_⟩
          have h5 : p.1 = m.1 := by linarith [hc.1]
          have := h4 h5
          have := hc.2 (by rw [he, h5])
          omega
        · exact h2 s (by simp [hs])

theorem pyMinPair_tabulate (n : Nat) (f : Nat → ℚ) :
    ∃ j, j ≤ n ∧ pyMinPair (tabulate (n + 1) f).zipIdx = .ok (f j, j) ∧
      ∀ j', j' ≤ n → f j ≤ f j' ∧ (f j' = f j → j ≤ j') := by
  have hmem : ∀ q : ℚ × Nat, q ∈ (tabulate (n + 1) f).zipIdx ↔ q.2 ≤ n ∧ q.1 = f q.2 := by
    rintro ⟨x, k⟩
    rw [List.mem_zipIdx_iff_getElem?]
    simp only [tabulate, List.getElem?_map]
    by_cases hk : k ≤ n
    · rw [List.getElem?_range (by omega)]
      simp [hk, eq_comm]
    · rw [List.getElem?_eq_none (by simp; omega)]
      simp [hk]
  cases hl : (tabulate (n + 1) f).zipIdx with
  | nil =>
    have := congrArg List.length hl
    simp [length_tabulate] at this
  | cons p ps =>
    obtain ⟨h1, h2⟩ := pyMinPair_fold ps p
    rw [pyMinPair]
    generalize List.foldl (fun m q => if q.1 < m.1 ∨ (q.1 = m.1 ∧ q.2 < m.2) then q else m) p ps = m
      at h1 h2 ⊢
    rw [← hl] at h1 h2
    obtain ⟨h3, h4⟩ := (hmem m).mp h1
    refine ⟨m.2, h3, by rw [← h4], ?_⟩
    intro j' hj'
    have := h2 (f j', j') ((hmem _).mpr ⟨hj', rfl⟩)
    rw [← h4]
    exact this

section
variable {c : EedCosts} {isspace : α → Bool} {hyp ref : List α}

omit [DecidableEq α] in
theorem visits_succ (i j : Nat) [Decidable (Visited c (isspace · = true) hyp ref i j)] :
    visits c (isspace · = true) hyp ref (i + 1) j =
      visits c (isspace · = true) hyp ref i j +
        if Visited c (isspace · = true) hyp ref i j then 1 else 0 := by
  unfold visits
  rw [List.range_succ, List.filter_append, List.length_append]
  congr 1
  by_cases h : Visited c (isspace · = true) hyp ref i j <;> simp [h]

/-- The invariant of the loop over the reference. -/
structure EedInv (c : EedCosts) (isspace : α → Bool) (hyp ref : List α) (i : Nat)
    (st : List ℚ × List ℚ) : Prop where
  row : ∃ f, st.1 = tabulate (hyp.length + 1) f ∧
    ∀ j, j ≤ hyp.length → IsLeast {x | After c (isspace · = true) hyp ref i j x} (f j)
  cov : st.2 = tabulate (hyp.length + 1)
    (fun j => ((visits c (isspace · = true) hyp ref i j : Nat) : ℚ))

theorem eedStep_ok (inf : ℚ) {i : Nat} {r : α} (hr : ref[i]? = some r) {st : List ℚ × List ℚ}
    (h : EedInv c isspace hyp ref i st) :
    ∃ st', eedStep c inf isspace hyp r st = .ok st' ∧ EedInv c isspace hyp ref (i + 1) st' := by
  obtain ⟨⟨f, hrow, hf⟩, hcov⟩ := h
  obtain ⟨m, hm, he, hmin⟩ := pyMinPair_tabulate hyp.length (eedCell c hyp r f)
  have hB := fun j hj => eedCell_least (isspace := isspace) hr hf j hj
  have hvis : ∀ j, Visited c (isspace · = true) hyp ref i j ↔ j = m := by
    intro j
    constructor
    · rintro ⟨x, hx, hall⟩
      have hj := before_le hx
      have h1 := (hall m _ (hB m hm).1)
      have h2 := (hB j hj).2 hx
      have h3 := hmin j hj
      have h4 : eedCell c hyp r f m = x := by
        apply le_antisymm
        · exact h3.1.trans h2
        · exact h1.1
      have h5 := h1.2 h4
      have h6 : eedCell c hyp r f j = eedCell c hyp r f m := by
        apply le_antisymm
        · rw [h4]; exact h2
        · exact h3.1
      have h7 := h3.2 h6
      omega
    · rintro rfl
      refine ⟨_, (hB j hm).1, ?_⟩
      intro j' x' hx'
      have hj' := before_le hx'
      have h1 := (hB j' hj').2 hx'
      have h2 := hmin j' hj'
      refine ⟨h2.1.trans h1, fun hh => h2.2 ?_⟩
      apply le_antisymm
      · rw [← hh]; exact h1
      · exact h2.1
  have hcov' : (tabulate (hyp.length + 1)
      (fun j => ((visits c (isspace · = true) hyp ref i j : Nat) : ℚ))).set m
        (((visits c (isspace · = true) hyp ref i m : Nat) : ℚ) + 1) =
      tabulate (hyp.length + 1)
        (fun j => ((visits c (isspace · = true) hyp ref (i + 1) j : Nat) : ℚ)) := by
    rw [set_tabulate]
    refine tabulate_congr (fun j _ => ?_)
    classical
    rw [visits_succ]
    by_cases hjm : j = m
    · subst hjm
      rw [if_pos ((hvis j).mpr rfl)]
      simp
    · rw [if_neg (fun hh => hjm ((hvis j).mp hh)), Function.update_of_ne hjm]
      simp
  unfold eedStep
  rw [hrow, eedNext_ok]
  simp only [bind, Except.bind]
  rw [he]
  simp only
  rw [hcov, pyGet_tabulate _ (by omega)]
  simp only
  rw [pySet_ok (by rw [length_tabulate]; omega), hcov']
  refine ⟨_, rfl, ?_, rfl⟩
  by_cases hs : isspace r = true
  · refine ⟨fun j => min (eedCell c hyp r f j) (c.jump + eedCell c hyp r f m), ?_, ?_⟩
    · simp only [hs, if_true, tabulate, List.map_map]
      rfl
    · intro j hj
      constructor
      · rcases min_choice (eedCell c hyp r f j) (c.jump + eedCell c hyp r f m) with h | h
        · change After _ _ _ _ _ _ (min (eedCell c hyp r f j) (c.jump + eedCell c hyp r f m))
          rw [h]; exact After.stay (hB j hj).1
        · change After _ _ _ _ _ _ (min (eedCell c hyp r f j) (c.jump + eedCell c hyp r f m))
          rw [h, add_comm c.jump]
          exact After.jump hr hs hj (hB m hm).1
      · intro x hx
        cases hx with
        | stay h => exact (min_le_left _ _).trans ((hB j hj).2 h)
        | @jump _ j₀ _ y a h1 h2 h3 h =>
          have h4 := (hB j₀ (before_le h)).2 h
          have h5 := (hmin j₀ (before_le h)).1
          exact (min_le_right _ _).trans (by linarith)
  · refine ⟨eedCell c hyp r f, ?_, ?_⟩
    · simp only [hs]; rfl
    · intro j hj
      constructor
      · exact After.stay (hB j hj).1
      · intro x hx
        cases hx with
        | stay h => exact (hB j hj).2 h
        | @jump _ j₀ _ y a h1 h2 h3 h =>
          exfalso
          rw [hr] at h1
          simp only [Option.some.injEq] at h1
          subst h1
          exact hs h2

theorem eedLoop_ok (inf : ℚ) (rs pre : List α) (h : ref = pre ++ rs) {st : List ℚ × List ℚ}
    (hi : EedInv c isspace hyp ref pre.length st) :
    ∃ st', eedLoop c inf isspace hyp rs st = .ok st' ∧ EedInv c isspace hyp ref ref.length st' := by
  induction rs generalizing pre st with
  | nil =>
    refine ⟨st, rfl, ?_⟩
    have : ref.length = pre.length := by rw [h]; simp
    rw [this]; exact hi
  | cons r rs ih =>
    have hr : ref[pre.length]? = some r := by rw [h]; simp
    obtain ⟨st1, h1, h2⟩ := eedStep_ok inf hr hi
    obtain ⟨st2, h3, h4⟩ := ih (pre ++ [r]) (by rw [h]; simp) (st := st1) (by simpa using h2)
    refine ⟨st2, ?_, h4⟩
    rw [eedLoop]
    simp only [bind, Except.bind, h1, h3]

omit [DecidableEq α] in
theorem eed_start : EedInv c isspace hyp ref 0
    ([0] ++ List.replicate hyp.length 1, List.replicate (hyp.length + 1) 0) := by
  refine ⟨⟨fun j => if j = 0 then 0 else 1, ?_, ?_⟩, ?_⟩
  · simp only
    refine List.ext_getElem (by simp [tabulate]) ?_
    intro j h1 h2
    cases j with
    | zero => simp [tabulate]
    | succ j => simp [tabulate]
  · intro j hj
    cases j with
    | zero =>
      refine ⟨After.start, ?_⟩
      intro x hx
      cases hx with
      | start => exact le_refl _
    | succ j =>
      refine ⟨After.first (by omega), ?_⟩
      intro x hx
      cases hx with
      | first => exact le_refl _
  · simp only
    rw [replicate_tabulate]
    refine tabulate_congr (fun j _ => ?_)
    simp [visits]

end

omit [DecidableEq α] in
theorem coverage_nonneg (c : EedCosts) (space : α → Prop) (hyp ref : List α) :
    0 ≤ coverage c space hyp ref := by
  unfold coverage
  refine List.sum_induction (fun x : ℚ => 0 ≤ x) (fun _ _ => add_nonneg) (le_refl _) ?_
  intro x hx
  obtain ⟨j, -, rfl⟩ := List.mem_map.mp hx
  exact abs_nonneg _

/-- What the function computes, for parameters whose denominator is not zero. -/
theorem eed_ok (c : EedCosts) (inf : ℚ) (sp : α) (isspace : α → Bool) (hyp ref : List α)
    (hrho : 0 ≤ c.rho) :
    ∃ E, IsLeast {x | After c (isspace · = true) ([sp] ++ hyp ++ [sp]) ([sp] ++ ref ++ [sp])
        (ref.length + 2) (hyp.length + 2) x} E ∧
      extendedEditDistance c inf sp isspace hyp ref = .ok (min 1
        ((E + c.rho * coverage c (isspace · = true) ([sp] ++ hyp ++ [sp]) ([sp] ++ ref ++ [sp])) /
        ((ref.length : ℚ) + 2 +
          c.rho * coverage c (isspace · = true) ([sp] ++ hyp ++ [sp]) ([sp] ++ ref ++ [sp])))) := by
  obtain ⟨st, h1, ⟨f, hrow, hf⟩, hcov⟩ := eedLoop_ok (c := c) (isspace := isspace)
    (hyp := [sp] ++ hyp ++ [sp]) (ref := [sp] ++ ref ++ [sp]) inf ([sp] ++ ref ++ [sp]) [] rfl
    eed_start
  have hlr : ([sp] ++ ref ++ [sp]).length = ref.length + 2 := by simp
  have hlh : ([sp] ++ hyp ++ [sp]).length = hyp.length + 2 := by simp
  have hE := hf (hyp.length + 2) (by rw [hlh])
  rw [hlr] at hE
  refine ⟨_, hE, ?_⟩
  have hc : (st.2.map (fun v => |v - 1|)).sum =
      coverage c (isspace · = true) ([sp] ++ hyp ++ [sp]) ([sp] ++ ref ++ [sp]) := by
    rw [hcov]
    simp only [tabulate, List.map_map, coverage]
    rfl
  have hpos : (0 : ℚ) < (ref.length : ℚ) + 2 +
      c.rho * coverage c (isspace · = true) ([sp] ++ hyp ++ [sp]) ([sp] ++ ref ++ [sp]) := by
    have := mul_nonneg hrho (coverage_nonneg c (isspace · = true) ([sp] ++ hyp ++ [sp]) ([sp] ++ ref ++ [sp]))
    have h0 : (0 : ℚ) ≤ ref.length := Nat.cast_nonneg _
    linarith
  unfold extendedEditDistance
  simp only [bind, Except.bind]
  rw [h1]
  simp only
  rw [hrow, hlh, pyGetI_last, hc, hlr]
  simp only
  have hcast : ((ref.length + 2 : Nat) : ℚ) = (ref.length : ℚ) + 2 := by push_cast; rfl
  rw [hcast, if_neg hpos.ne']
  rfl

/-! ### Non-negative and positive costs -/

/-- All parameters are non-negative. -/
structure EedCosts.Nonneg (c : EedCosts) : Prop where
  deletion : 0 ≤ c.deletion
  insertion : 0 ≤ c.insertion
  substitution : 0 ≤ c.substitution
  jump : 0 ≤ c.jump
  rho : 0 ≤ c.rho

omit [DecidableEq α] in
theorem eed_walk_nonneg {c : EedCosts} (hc : c.Nonneg) {space : α → Prop} {hyp ref : List α}
    (i : Nat) : ∀ j x, After c space hyp ref i j x → 0 ≤ x := by
  induction i with
  | zero =>
    intro j x h
    cases h with
    | start => exact le_refl _
    | first => exact zero_le_one
  | succ i ih =>
    have hB : ∀ j x, Before c space hyp ref (i + 1) j x → 0 ≤ x := by
      intro j
      induction j with
      | zero =>
        intro x h
        cases h with
        | border _ h => have := ih _ _ h; linarith
      | succ j ihj =>
        intro x h
        cases h with
        | skip _ h => have := ihj _ h; linarith [hc.deletion]
        | same _ _ h => exact ih _ _ h
        | subst _ _ _ h => have := ih _ _ h; linarith [hc.substitution]
        | read _ _ h => have := ih _ _ h; linarith [hc.insertion]
    intro j x h
    cases h with
    | stay h => exact hB _ _ h
    | jump _ _ _ h => have := hB _ _ h; linarith [hc.jump]

omit [DecidableEq α] in
/-- With positive costs a walk is free of charge only on the diagonal. -/
theorem eed_walk_zero {c : EedCosts} (h1 : 0 < c.deletion) (h2 : 0 < c.insertion)
    (h3 : 0 < c.substitution) (h4 : 0 < c.jump) {space : α → Prop} {hyp ref : List α} (i : Nat) :
    (∀ j x, After c space hyp ref i j x → 0 ≤ x ∧ (x = 0 → j = i)) ∧
    (∀ j x, Before c space hyp ref (i + 1) j x → 0 ≤ x ∧ (x = 0 → j = i + 1)) := by
  have step : ∀ i, (∀ j x, After c space hyp ref i j x → 0 ≤ x ∧ (x = 0 → j = i)) →
      ∀ j x, Before c space hyp ref (i + 1) j x → 0 ≤ x ∧ (x = 0 → j = i + 1) := by
    intro i ih j
    induction j with
    | zero =>
      intro x h
      cases h with
      | border _ h => have := (ih _ _ h).1; exact ⟨by linarith, fun _ => by linarith⟩
    | succ j ihj =>
      intro x h
      cases h with
      | skip _ h => have := (ihj _ h).1; exact ⟨by linarith, fun _ => by linarith⟩
      | same _ _ h =>
        obtain ⟨h5, h6⟩ := ih _ _ h
        exact ⟨h5, fun hx => by rw [h6 hx]⟩
      | subst _ _ _ h => have := (ih _ _ h).1; exact ⟨by linarith, fun _ => by linarith⟩
      | read _ _ h => have := (ih _ _ h).1; exact ⟨by linarith, fun _ => by linarith⟩
  have hA : ∀ j x, After c space hyp ref i j x → 0 ≤ x ∧ (x = 0 → j = i) := by
    induction i with
    | zero =>
      intro j x h
      cases h with
      | start => exact ⟨le_refl _, fun _ => rfl⟩
      | first => exact ⟨zero_le_one, fun h => absurd h one_ne_zero⟩
    | succ i ih =>
      have hB := step i ih
      intro j x h
      cases h with
      | stay h => exact hB _ _ h
      | jump _ _ _ h => have := (hB _ _ h).1; exact ⟨by linarith, fun _ => by linarith⟩
  exact ⟨hA, step i hA⟩

omit [DecidableEq α] in
theorem eed_diagonal (c : EedCosts) (space : α → Prop) (s : List α) (i : Nat) (hi : i ≤ s.length) :
    After c space s s i i 0 := by
  induction i with
  | zero => exact After.start
  | succ i ih =>
    have h : s[i]? = some s[i] := List.getElem?_eq_getElem (by omega)
    exact After.stay (Before.same h h (ih (by omega)))

omit [DecidableEq α] in
theorem eed_self_coverage {c : EedCosts} (h1 : 0 < c.deletion) (h2 : 0 < c.insertion)
    (h3 : 0 < c.substitution) (h4 : 0 < c.jump) (space : α → Prop) (s : List α) :
    coverage c space s s = 1 := by
  have hvis : ∀ i j, i < s.length → (Visited c space s s i j ↔ j = i + 1) := by
    intro i j hi
    have hz := (eed_walk_zero h1 h2 h3 h4 (space := space) (hyp := s) (ref := s) i).2
    have hd : Before c space s s (i + 1) (i + 1) 0 := by
      have h : s[i]? = some s[i] := List.getElem?_eq_getElem hi
      exact Before.same h h (eed_diagonal c space s i hi.le)
    constructor
    · rintro ⟨x, hx, hall⟩
      have h5 := (hall _ _ hd).1
      have h6 := hz _ _ hx
      exact h6.2 (le_antisymm h5 h6.1)
    · rintro rfl
      refine ⟨0, hd, fun j' x' h' => ?_⟩
      have h6 := hz _ _ h'
      exact ⟨h6.1, fun hx => by rw [h6.2 hx]⟩
  have hcount : ∀ j, j ≤ s.length → visits c space s s s.length j = if j = 0 then 0 else 1 := by
    intro j hj
    classical
    unfold visits
    have : (List.range s.length).filter (fun i => decide (Visited c space s s i j)) =
        (List.range s.length).filter (fun i => i + 1 == j) := by
      refine List.filter_congr (fun i hi => ?_)
      have := hvis i j (List.mem_range.mp hi)
      rw [Bool.eq_iff_iff]
      rw [decide_eq_true_eq, this, beq_iff_eq, eq_comm]
    have h' : ((List.range s.length).filter (fun i => decide (Visited c space s s i j))).length =
        (if j = 0 then 0 else 1) := by
      rw [this, ← List.countP_eq_length_filter]
      cases j with
      | zero => simp
      | succ j =>
        have := List.count_eq_one_of_mem (List.nodup_range (n := s.length)) (List.mem_range.mpr (show j < s.length by omega))
        rw [if_neg (by omega), ← this, List.count]
        exact List.countP_congr (fun i _ => by simp)
    convert h' using 2
  unfold coverage
  rw [List.range_succ_eq_map, List.map_cons, List.sum_cons, List.map_map]
  rw [hcount 0 (by omega)]
  have : ((List.range s.length).map
      ((fun j => |((visits c space s s s.length j : Nat) : ℚ) - 1|) ∘ Nat.succ)) =
      (List.range s.length).map (fun _ => (0 : ℚ)) := by
    refine List.map_congr_left (fun j hj => ?_)
    have hj := List.mem_range.mp hj
    simp only [Function.comp]
    rw [hcount (j + 1) (by omega)]
    simp
  rw [this]
  simp

end Edit
end Verif
