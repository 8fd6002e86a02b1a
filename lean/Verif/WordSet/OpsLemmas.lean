import Verif.WordSet.Ops
import Verif.WordSet.Props

/-!
# Lemmas about the inherited operators of `WordSet`
-/

namespace Verif

open WordSetSpec

variable {cf : List Char → List Char} {un : Normalizer}

/-- Specification of one round of `^=`. -/
def absToggle (key : List Char → Option (List Char)) (s : List Member) (v : PyVal) :
    List Member × Except PyErr Unit :=
  match absContains key s v with
  | .error e => (s, .error e)
  | .ok true => absDiscard key s v
  | .ok false => absAdd key s v

theorem Rep.contains {st : WS} {s : List Member} (h : Rep cf un st s) (v : PyVal) :
    st.contains cf un v = absContains (st.key cf un) s v := by
  have h2 := (h.step (.contains v)).2.1
  simpa only [WS.step, absStep, WSOut.bool.injEq] using h2

theorem Rep.toggle {st : WS} {s : List Member} (h : Rep cf un st s) (v : PyVal) :
    Rep cf un (st.toggle cf un v).1 (absToggle (st.key cf un) s v).1 ∧
    (st.toggle cf un v).2 = (absToggle (st.key cf un) s v).2 ∧
    SameConfig st (st.toggle cf un v).1 := by
  unfold WS.toggle absToggle
  rw [h.contains v]
  cases hc : absContains (st.key cf un) s v with
  | error e => exact ⟨h, rfl, SameConfig.refl _⟩
  | ok b =>
    cases b with
    | true => exact h.discard v
    | false => exact h.add v

theorem Rep.clear' {st : WS} {s : List Member} (h : Rep cf un st s) : Rep cf un st.clear [] :=
  (h.step .clear).1

/-- A word that `add` accepts. -/
def Good (key : List Char → Option (List Char)) (w : List Char) : Prop :=
  w ≠ [] ∧ ∃ k, key w = some k ∧ k ≠ []

theorem Good.add {key : List Char → Option (List Char)} {w k : List Char} (h : Good key w)
    (hk : key w = some k) (s : List Member) :
    absAdd key s (.str w) = (WordSetSpec.insert s ⟨k, w⟩, .ok ()) := by
  obtain ⟨hw, k', hk', hne⟩ := h
  rw [hk] at hk'
  cases hk'
  unfold absAdd
  cases w with
  | nil => exact absurd rfl hw
  | cons c w =>
    cases k with
    | nil => exact absurd rfl hne
    | cons d k => simp only [hk]

theorem Good.toggle {key : List Char → Option (List Char)} {w k : List Char} (h : Good key w)
    (hk : key w = some k) (s : List Member) :
    absToggle key s (.str w) =
      (if Mem s k then delete s k else s ++ [⟨k, w⟩], .ok ()) := by
  unfold absToggle absContains
  simp only [hk]
  by_cases hm : Mem s k
  · simp [hm, absDiscard, hk]
  · simp only [hm, decide_false, if_false]
    rw [h.add hk]
    unfold WordSetSpec.insert
    rw [if_neg hm]

theorem mem_delete {s : List Member} {k k' : List Char} : Mem (delete s k') k ↔ Mem s k ∧ k ≠ k' := by
  unfold Mem delete
  constructor
  · rintro ⟨m, hm, rfl⟩
    rw [List.mem_filter, decide_eq_true_eq] at hm
    exact ⟨⟨m, hm.1, rfl⟩, hm.2⟩
  · rintro ⟨⟨m, hm, rfl⟩, hne⟩
    exact ⟨m, List.mem_filter.2 ⟨hm, by simpa using hne⟩, rfl⟩

theorem mem_snoc {s : List Member} {m : Member} {k : List Char} :
    Mem (s ++ [m]) k ↔ Mem s k ∨ m.key = k := by
  unfold Mem
  constructor
  · rintro ⟨x, hx, rfl⟩
    rw [List.mem_append, List.mem_singleton] at hx
    rcases hx with hx | rfl
    · exact .inl ⟨x, hx, rfl⟩
    · exact .inr rfl
  · rintro (⟨x, hx, rfl⟩ | rfl)
    · exact ⟨x, List.mem_append_left _ hx, rfl⟩
    · exact ⟨m, List.mem_append_right _ (List.mem_singleton.2 rfl), rfl⟩

theorem mem_insert {s : List Member} {m : Member} {k : List Char} :
    Mem (WordSetSpec.insert s m) k ↔ Mem s k ∨ m.key = k := by
  unfold WordSetSpec.insert
  split
  · rename_i h
    exact ⟨.inl, fun h' => h'.elim id (fun e => e ▸ h)⟩
  · exact mem_snoc

/-- `-=` keeps exactly the members whose normal form is not among those given, in order. -/
theorem absIsub {key : List Char → Option (List Char)} (W : List (List Char))
    (hW : ∀ w ∈ W, ∃ k, key w = some k) (s : List Member) :
    absForEach (absDiscard key) s (W.map .str) =
      (s.filter (fun m => decide (∀ w ∈ W, key w ≠ some m.key)), .ok ()) := by
  induction W generalizing s with
  | nil => simp [absForEach]
  | cons w W ih =>
    obtain ⟨k, hk⟩ := hW w List.mem_cons_self
    rw [List.map_cons, absForEach]
    have e : absDiscard key s (.str w) = (delete s k, .ok ()) := by simp [absDiscard, hk]
    rw [e]
    change absForEach _ _ _ = _
    rw [ih (fun w hw => hW w (List.mem_cons_of_mem _ hw))]
    congr 1
    unfold delete
    rw [List.filter_filter]
    apply List.filter_congr
    intro m _
    rw [← Bool.decide_and, decide_eq_decide]
    simp only [List.mem_cons, forall_eq_or_imp, hk, ne_eq, Option.some.injEq]
    constructor
    · rintro ⟨h1, h2⟩; exact ⟨fun e => h2 e.symm, h1⟩
    · rintro ⟨h1, h2⟩; exact ⟨h2, fun e => h1 e.symm⟩

/-- `|=`: the union of the normal forms; old members keep their place and spelling. -/
theorem absIor {key : List Char → Option (List Char)} (W : List (List Char))
    (hW : ∀ w ∈ W, Good key w) (s : List Member) :
    ∃ t, absForEach (absAdd key) s (W.map .str) = (s ++ t, .ok ()) ∧ (∀ m ∈ t, m.orig ∈ W) ∧
      ∀ k, Mem (s ++ t) k ↔ Mem s k ∨ ∃ w ∈ W, key w = some k := by
  induction W generalizing s with
  | nil => exact ⟨[], by simp [absForEach], by simp, by simp⟩
  | cons w W ih =>
    obtain ⟨k, hk, hne⟩ := (hW w List.mem_cons_self).2
    obtain ⟨t, h1, h2, h3⟩ := ih (fun w hw => hW w (List.mem_cons_of_mem _ hw)) (WordSetSpec.insert s ⟨k, w⟩)
    obtain ⟨u, hu, hu'⟩ : ∃ u, WordSetSpec.insert s ⟨k, w⟩ = s ++ u ∧ ∀ m ∈ u, m.orig = w := by
      unfold WordSetSpec.insert
      split
      · exact ⟨[], by simp, by simp⟩
      · exact ⟨_, rfl, by simp⟩
    refine ⟨u ++ t, ?_, ?_, ?_⟩
    · rw [List.map_cons, absForEach, (hW w List.mem_cons_self).add hk]
      change absForEach _ _ _ = _
      rw [h1, hu, List.append_assoc]
    · intro m hm
      rcases List.mem_append.1 hm with hm | hm
      · rw [hu' m hm]; exact List.mem_cons_self
      · exact List.mem_cons_of_mem _ (h2 m hm)
    · intro k'
      rw [← List.append_assoc, ← hu, h3 k', mem_insert]
      simp only [List.mem_cons, exists_eq_or_imp, hk, Option.some.injEq]
      tauto

/-- `^=`: a normal form is present afterwards iff presence before differs from the parity of the
number of given words with it. -/
theorem absIxor {key : List Char → Option (List Char)} (W : List (List Char))
    (hW : ∀ w ∈ W, Good key w) (s : List Member) :
    (absForEach (absToggle key) s (W.map .str)).2 = .ok () ∧
    ∀ k, Mem (absForEach (absToggle key) s (W.map .str)).1 k ↔
      ¬ (Mem s k ↔ Odd (W.countP (fun w => key w = some k))) := by
  induction W generalizing s with
  | nil => simp [absForEach]
  | cons w W ih =>
    obtain ⟨k, hk, hne⟩ := (hW w List.mem_cons_self).2
    have hi := ih (fun w hw => hW w (List.mem_cons_of_mem _ hw))
      (if Mem s k then delete s k else s ++ [⟨k, w⟩])
    rw [List.map_cons, absForEach, (hW w List.mem_cons_self).toggle hk]
    refine ⟨hi.1, fun k' => ?_⟩
    refine (hi.2 k').trans ?_
    have ht : Mem (if Mem s k then delete s k else s ++ [⟨k, w⟩]) k' ↔
        ¬ (Mem s k' ↔ k = k') := by
      by_cases hm : Mem s k
      · rw [if_pos hm, mem_delete]
        by_cases e : k = k'
        · subst e; simp [hm]
        · simp [e, Ne.symm e]
      · rw [if_neg hm, mem_snoc]
        by_cases e : k = k'
        · subst e; simp [hm]
        · simp [e]
    rw [ht, List.countP_cons]
    by_cases e : k = k'
    · subst e
      simp only [hk, decide_true, if_true, Nat.odd_add_one]
      tauto
    · simp only [hk, Option.some.injEq, e, decide_false, Bool.false_eq_true, if_false, add_zero]
      tauto

/-- `^=` with words of pairwise different normal forms: what is common goes, what is new comes, in
order. -/
theorem absIxor_nodup {key : List Char → Option (List Char)} (W : List (List Char))
    (hW : ∀ w ∈ W, Good key w) (hnd : (W.map key).Nodup) (s : List Member) :
    (absForEach (absToggle key) s (W.map .str)).1.map Member.orig =
      (s.filter (fun m => decide (∀ w ∈ W, key w ≠ some m.key))).map Member.orig ++
      W.filter (fun w => decide (∀ m ∈ s, key w ≠ some m.key)) := by
  induction W generalizing s with
  | nil => simp [absForEach]
  | cons w W ih =>
    obtain ⟨k, hk, hne⟩ := (hW w List.mem_cons_self).2
    rw [List.map_cons, List.nodup_cons] at hnd
    have hkW : ∀ w' ∈ W, key w' ≠ some k := fun w' hw' e =>
      hnd.1 (List.mem_map.2 ⟨w', hw', by rw [e, hk]⟩)
    have hi := ih (fun w hw => hW w (List.mem_cons_of_mem _ hw)) hnd.2
      (if Mem s k then delete s k else s ++ [⟨k, w⟩])
    rw [List.map_cons, absForEach, (hW w List.mem_cons_self).toggle hk]
    refine hi.trans ?_
    by_cases hm : Mem s k
    · rw [if_pos hm]
      obtain ⟨m0, hm0, hm0k⟩ := hm
      have e1 : (delete s k).filter (fun m => decide (∀ w ∈ W, key w ≠ some m.key)) =
          s.filter (fun m => decide (∀ w' ∈ w :: W, key w' ≠ some m.key)) := by
        unfold delete
        rw [List.filter_filter]
        apply List.filter_congr
        intro m _
        rw [← Bool.decide_and, decide_eq_decide]
        simp only [List.mem_cons, forall_eq_or_imp, hk, ne_eq, Option.some.injEq]
        constructor
        · rintro ⟨h1, h2⟩; exact ⟨fun e => h2 e.symm, h1⟩
        · rintro ⟨h1, h2⟩; exact ⟨h2, fun e => h1 e.symm⟩
      have e2 : (w :: W).filter (fun w => decide (∀ m ∈ s, key w ≠ some m.key)) =
          W.filter (fun w => decide (∀ m ∈ delete s k, key w ≠ some m.key)) := by
        rw [List.filter_cons_of_neg (by
          rw [decide_eq_true_eq]
          intro hc
          exact hc m0 hm0 (by rw [hk, hm0k]))]
        apply List.filter_congr
        intro w' hw'
        rw [decide_eq_decide]
        unfold delete
        constructor
        · intro h m hm
          exact h m (List.mem_filter.1 hm).1
        · intro h m hm e
          by_cases hmk : m.key = k
          · exact hkW w' hw' (by rw [e, hmk])
          · exact h m (List.mem_filter.2 ⟨hm, by simpa using hmk⟩) e
      rw [e1, e2]
    · rw [if_neg hm, List.filter_append, List.map_append, List.append_assoc]
      have e1 : s.filter (fun m => decide (∀ w ∈ W, key w ≠ some m.key)) =
          s.filter (fun m => decide (∀ w' ∈ w :: W, key w' ≠ some m.key)) := by
        apply List.filter_congr
        intro m hms
        rw [decide_eq_decide]
        simp only [List.mem_cons, forall_eq_or_imp, hk, ne_eq, Option.some.injEq]
        exact ⟨fun h => ⟨fun e => hm ⟨m, hms, e.symm⟩, h⟩, fun h => h.2⟩
      have e2 : (w :: W).filter (fun w => decide (∀ m ∈ s, key w ≠ some m.key)) =
          w :: W.filter (fun w' => decide (∀ m ∈ s ++ [⟨k, w⟩], key w' ≠ some m.key)) := by
        rw [List.filter_cons_of_pos (by
          rw [decide_eq_true_eq]
          intro m hms e
          rw [hk] at e
          exact hm ⟨m, hms, (Option.some.inj e).symm⟩)]
        congr 1
        apply List.filter_congr
        intro w' hw'
        rw [decide_eq_decide]
        constructor
        · intro h m hm
          rw [List.mem_append, List.mem_singleton] at hm
          rcases hm with hm | rfl
          · exact h m hm
          · exact hkW w' hw'
        · intro h m hm
          exact h m (List.mem_append_left _ hm)
      rw [e1, e2, List.filter_cons_of_pos (by rw [decide_eq_true_eq]; exact hkW)]
      rfl

/-- No empty word is ever stored. -/
theorem absForEach_orig {f : List Member → PyVal → List Member × Except PyErr Unit}
    (hf : ∀ s v, (∀ m ∈ s, m.orig ≠ []) → ∀ m ∈ (f s v).1, m.orig ≠ []) (s : List Member)
    (hs : ∀ m ∈ s, m.orig ≠ []) (vs : List PyVal) : ∀ m ∈ (absForEach f s vs).1, m.orig ≠ [] := by
  induction vs generalizing s with
  | nil => exact hs
  | cons v vs ih =>
    rw [absForEach]
    have := hf s v hs
    cases hfv : f s v with
    | mk s' r =>
      rw [hfv] at this
      cases r with
      | ok u => exact ih s' this
      | error e => exact this

theorem absAdd_orig {key : List Char → Option (List Char)} (s : List Member) (v : PyVal)
    (hs : ∀ m ∈ s, m.orig ≠ []) : ∀ m ∈ (absAdd key s v).1, m.orig ≠ [] := by
  unfold absAdd
  split
  · split
    · exact hs
    · exact hs
    · exact hs
    · rename_i hw _
      unfold WordSetSpec.insert
      split
      · exact hs
      · intro m hm
        rw [List.mem_append, List.mem_singleton] at hm
        rcases hm with hm | rfl
        · exact hs m hm
        · exact fun e => hw e
  · exact hs

theorem absDiscard_orig {key : List Char → Option (List Char)} (s : List Member) (v : PyVal)
    (hs : ∀ m ∈ s, m.orig ≠ []) : ∀ m ∈ (absDiscard key s v).1, m.orig ≠ [] := by
  unfold absDiscard
  split
  · split
    · exact hs
    · exact fun m hm => hs m (List.mem_filter.1 hm).1
  · exact hs

theorem absStep_orig {key : List Char → Option (List Char)} {ns : List ℕ} (s : List Member)
    (op : WSOp) (hs : ∀ m ∈ s, m.orig ≠ []) : ∀ m ∈ (absStep key ns s op).1, m.orig ≠ [] := by
  cases op with
  | add v => exact absAdd_orig s v hs
  | discard v => exact absDiscard_orig s v hs
  | remove v =>
    simp only [absStep]
    unfold absRemove
    split
    · split
      · exact hs
      · split
        · exact fun m hm => hs m (List.mem_filter.1 hm).1
        · exact hs
    · exact hs
  | clear => simp [absStep]
  | pop =>
    cases s with
    | nil => exact hs
    | cons m s => exact fun m hm => hs m (List.mem_cons_of_mem _ hm)
  | ior vs => exact absForEach_orig absAdd_orig s hs vs
  | isub vs => exact absForEach_orig absDiscard_orig s hs vs
  | contains v => exact hs
  | len => exact hs
  | iter => exact hs
  | findSimilar q k ms => exact hs
  | suggest q k => exact hs

theorem WSReachable.orig {st : WS} (h : WSReachable cf un st) :
    ∀ m ∈ st.members cf un, m.orig ≠ [] := by
  obtain ⟨cs, cb, sizes, st₀, ops, h₀, rfl⟩ := h
  have hr := ((Rep.new (cf := cf) (un := un) h₀).run ops).1
  rw [hr.members]
  unfold absRun
  generalize st₀.key cf un = key
  have : ∀ (s : List Member), (∀ m ∈ s, m.orig ≠ []) → ∀ m ∈ ops.foldl
      (fun s op => (absStep key (st₀.nList.map Int.toNat) s op).1) s, m.orig ≠ [] := by
    clear hr
    induction ops with
    | nil => exact fun s hs => hs
    | cons op ops ih => exact fun s hs => ih _ (absStep_orig s op hs)
  exact this [] (by simp)

theorem allIn_eq {f : PyVal → Except PyErr Bool} {g : PyVal → Bool} {vs : List PyVal}
    (h : ∀ v ∈ vs, f v = .ok (g v)) : allIn f vs = .ok (vs.all g) := by
  induction vs with
  | nil => rfl
  | cons v vs ih =>
    rw [allIn, h v List.mem_cons_self, List.all_cons]
    cases g v with
    | true => simpa using ih (fun v hv => h v (List.mem_cons_of_mem _ hv))
    | false => rfl

theorem noneIn_eq {f : PyVal → Except PyErr Bool} {g : PyVal → Bool} {vs : List PyVal}
    (h : ∀ v ∈ vs, f v = .ok (g v)) : noneIn f vs = .ok (vs.all (fun v => !g v)) := by
  induction vs with
  | nil => rfl
  | cons v vs ih =>
    rw [noneIn, h v List.mem_cons_self, List.all_cons]
    cases g v with
    | false => simpa using ih (fun v hv => h v (List.mem_cons_of_mem _ hv))
    | true => rfl

theorem toggle_run (st : WS) (v : PyVal) : ∃ ops, (st.toggle cf un v).1 = st.run cf un ops := by
  unfold WS.toggle
  cases st.contains cf un v with
  | error e => exact ⟨[], rfl⟩
  | ok b =>
    cases b with
    | true => exact ⟨[.discard v], rfl⟩
    | false => exact ⟨[.add v], rfl⟩

theorem WSReachable.run {st : WS} (h : WSReachable cf un st) (ops : List WSOp) :
    WSReachable cf un (st.run cf un ops) := by
  obtain ⟨cs, cb, sizes, st₀, ops₀, h₀, rfl⟩ := h
  exact ⟨cs, cb, sizes, st₀, ops₀ ++ ops, h₀, by simp [WS.run, List.foldl_append]⟩

theorem toggles_reachable {st : WS} (h : WSReachable cf un st) (vs : List PyVal) :
    WSReachable cf un (WS.forEach (WS.toggle cf un) st vs).1 := by
  induction vs generalizing st with
  | nil => exact h
  | cons v vs ih =>
    have h1 : WSReachable cf un (st.toggle cf un v).1 := by
      obtain ⟨ops, e⟩ := toggle_run (cf := cf) (un := un) st v
      rw [e]; exact h.run ops
    rw [WS.forEach]
    cases ht : st.toggle cf un v with
    | mk st' r =>
      rw [ht] at h1
      cases r with
      | ok u => exact ih h1
      | error e => exact h1

end Verif
