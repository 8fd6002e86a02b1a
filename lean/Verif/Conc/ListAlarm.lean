import Verif.Conc.ListLost
import Verif.Conc.ListProps

/-!
# `WordList` filled by several threads, after a race: properties C191–C193
-/

namespace Verif
namespace ListConc

open GramSpec IndexSpec

variable {cf : List Char → List Char} {C : ℕ → Call} {s : Sys} {S : Type} [LinearOrder S]

/-! ## C191 -/

/-- Overlapping calls of `add_word` add different words, and a call raises that would have succeeded alone.
From then on its word is in the vocabulary; calling `add_word` with it again returns without doing
anything; and no lookup returns it. -/
theorem C191_word_lost (hcf : ∀ w, cf (cf w) = cf w) {st : WL} (hr : st.Reachable cf)
    {sched : List ℕ} (ha : AlwaysApart cf C (Sys.start st) sched) {i : ℕ} {e : PyErr}
    (hok : (st.addWord cf (C i).word).2 = .ok ())
    (hi : (((Sys.start st).run cf C sched).pc i).outcome = some (.error e)) :
    ∃ x, target cf st.caseInsensitive (C i).word = some x ∧
      x ∈ ((Sys.start st).run cf C sched).mem.vocabulary ∧
      ((Sys.start st).run cf C sched).mem.addWord cf (C i).word =
        (((Sys.start st).run cf C sched).mem, .ok ()) ∧
      ∀ (agg : List ℚ → S) (word topK : PyVal) (normalize : Bool) (res),
        ((Sys.start st).run cf C sched).mem.lookup agg cf word topK normalize = .ok res →
        x ∉ res.map Prod.fst := by
  have hinv := hr.inv hcf
  obtain ⟨x, hx⟩ := (addWord_words hcf hinv _).1.1 hok
  have hw := (Weak.start (C := C) hinv).run hcf ha
  have hpc : ((Sys.start st).run cf C sched).pc i = .done (.error e) := by
    revert hi
    cases ((Sys.start st).run cf C sched).pc i with
    | done r => intro hi; injection hi with hi; rw [hi]
    | _ => intro hi; cases hi
  obtain ⟨h1, h2, h3⟩ := hw.lost i e x hpc hx
  obtain ⟨w, hword, hne, hfx, _⟩ := hx
  refine ⟨x, by rw [hword]; exact congrArg some hfx, (List.perm_insertionSort _ _).mem_iff.2 h1, ?_, ?_⟩
  · rw [hword]
    have hf : ((Sys.start st).run cf C sched).mem.fold cf w = x := by
      unfold WL.fold; rw [hw.cieq]; exact hfx
    have hk := h1
    simp only [WL.addWord, hf]
    rw [if_neg (by simpa using hne), if_pos (Dict.has_iff.2 (hw.sub x hk))]
  · intro agg word topK normalize res hres hmem
    obtain ⟨r, hr1, rfl⟩ := List.mem_map.1 hmem
    obtain ⟨j, hj, hun⟩ := lookup_posted hres r hr1
    exact hun (h3 j hj)

/-- Thread 1 measures the list before thread 0 extends it. -/
def raceSched : List ℕ := [0, 0, 0, 1, 1, 1] ++ List.replicate 60 0 ++ List.replicate 20 1

theorem raceSched_apart : AlwaysApart id addCalls (Sys.start demo₀) raceSched := by
  refine alwaysApart_of_test (T := [0, 1]) (by decide +kernel) ?_
  have : ∀ n, ∀ i ∈ [0, 1], ∀ j ∈ [0, 1], i ≠ j → target id n (addCalls i).word ≠
      target id n (addCalls j).word := by decide +kernel
  intro n _ i hi j hj hij _ _
  exact this _ i hi j hj hij

example : ∃ x, target id false (addCalls 1).word = some x ∧
    x ∈ ((Sys.start demo₀).run id addCalls raceSched).mem.vocabulary ∧
    ∀ (word topK : PyVal) (normalize : Bool) (res),
      ((Sys.start demo₀).run id addCalls raceSched).mem.lookup mean1 id word topK normalize = .ok res →
      x ∉ res.map Prod.fst := by
  have hok : (demo₀.addWord id (addCalls 1).word).2 = .ok () := by decide +kernel
  have hi : (((Sys.start demo₀).run id addCalls raceSched).pc 1).outcome =
      some (.error .assertionError) := by decide +kernel
  obtain ⟨x, h1, h2, _, h4⟩ := C191_word_lost (cf := id) (S := ℚ) (fun _ => rfl) demo₀_reachable
    raceSched_apart hok hi
  exact ⟨x, h1, h2, h4 mean1⟩

/-- The word is listed but not found; the other is. -/
example : ((Sys.start demo₀).run id addCalls raceSched).mem.vocabulary =
      ["banana".toList, "cabana".toList] ∧
    plain (((Sys.start demo₀).run id addCalls raceSched).mem.lookup mean1 id (.str "cabana".toList)
      (.int 5) true) = .ok [("banana", 71 / 140, 23 / 42)] := by decide +kernel

/-! ## C192 -/

/-- What holds in every run. -/
structure Loose (cf : List Char → List Char) (s : Sys) : Prop where
  keysN : (Dict.keys s.mem.wordIndices).Nodup
  sub : ∀ w ∈ s.mem.wordList, w ∈ Dict.keys s.mem.wordIndices
  push : ∀ t w i, s.pc t = .pushWord w i → s.mem.fold cf w ∈ Dict.keys s.mem.wordIndices
  pend : ∀ x ∈ Dict.keys s.mem.wordIndices, x ∈ s.mem.wordList ∨
    ∃ t w i, s.pc t = .pushWord w i ∧ s.mem.fold cf w = x

theorem Loose.move (h : Loose cf s) {i : ℕ} {p : Pc} {m : WL}
    (e1 : m.caseInsensitive = s.mem.caseInsensitive)
    (e2 : m.wordIndices = s.mem.wordIndices) (e3 : m.wordList = s.mem.wordList)
    (h1 : ∀ w k, s.pc i ≠ .pushWord w k) (h2 : ∀ w k, p ≠ .pushWord w k) :
    Loose cf ⟨m, upd s.pc i p⟩ := by
  have hfold : ∀ v, m.fold cf v = s.mem.fold cf v := by
    intro v; unfold WL.fold; rw [e1]
  refine ⟨by simp only [e2]; exact h.keysN, by simp only [e2, e3]; exact h.sub, ?_, ?_⟩
  · intro t w k ht
    simp only [e2, hfold]
    by_cases e : t = i
    · subst e; simp only [upd_self] at ht; exact absurd ht (h2 w k)
    · simp only [upd_other e] at ht; exact h.push t w k ht
  · intro x hx
    simp only [e2] at hx
    simp only [e3, hfold]
    rcases h.pend x hx with hx | ⟨t, w, k, ht, hx⟩
    · exact Or.inl hx
    · refine Or.inr ⟨t, w, k, ?_, hx⟩
      have : t ≠ i := by rintro rfl; exact h1 w k ht
      rw [upd_other this]; exact ht

theorem Loose.step (h : Loose cf s) (i : ℕ) : Loose cf (s.step cf C i) := by
  have hs : s.step cf C i = ⟨(ListConc.step cf (C i) s.mem (s.pc i)).1,
    upd s.pc i (ListConc.step cf (C i) s.mem (s.pc i)).2⟩ := rfl
  rw [hs]
  have mv : ∀ p : Pc, (∀ w k, s.pc i ≠ .pushWord w k) → (∀ w k, p ≠ .pushWord w k) →
      Loose cf ⟨s.mem, upd s.pc i p⟩ := fun p h1 h2 => h.move rfl rfl rfl h1 h2
  cases hpc : s.pc i with
  | enter =>
    have h1 : ∀ w k, s.pc i ≠ .pushWord w k := by intro w k hc; rw [hpc] at hc; cases hc
    simp only [ListConc.step]
    repeat' split
    all_goals exact mv _ h1 (fun _ _ hc => by cases hc)
  | again w =>
    have h1 : ∀ w k, s.pc i ≠ .pushWord w k := by intro w k hc; rw [hpc] at hc; cases hc
    simp only [ListConc.step]
    repeat' split
    all_goals exact mv _ h1 (fun _ _ hc => by cases hc)
  | fetch w =>
    have h1 : ∀ w k, s.pc i ≠ .pushWord w k := by intro w k hc; rw [hpc] at hc; cases hc
    simp only [ListConc.step]
    repeat' split
    all_goals exact mv _ h1 (fun _ _ hc => by cases hc)
  | measure w =>
    exact mv _ (by intro w k hc; rw [hpc] at hc; cases hc) (fun _ _ hc => by cases hc)
  | setIndex w k =>
    simp only [ListConc.step]
    refine ⟨Dict.nodup_keys_set h.keysN _ _, fun v hv => Dict.mem_keys_set.2 (Or.inr (h.sub v hv)), ?_, ?_⟩
    · intro t v j ht
      by_cases e : t = i
      · subst e
        simp only [upd_self] at ht
        injection ht with h1 h2
        subst h1
        exact Dict.mem_keys_set.2 (Or.inl rfl)
      · simp only [upd_other e] at ht
        exact Dict.mem_keys_set.2 (Or.inr (h.push t v j ht))
    · intro x hx
      rcases Dict.mem_keys_set.1 hx with hx | hx
      · exact Or.inr ⟨i, w, k, upd_self _ _ _, hx.symm⟩
      · rcases h.pend x hx with hx | ⟨t, v, j, ht, hx⟩
        · exact Or.inl hx
        · refine Or.inr ⟨t, v, j, ?_, hx⟩
          have : t ≠ i := by rintro rfl; rw [hpc] at ht; cases ht
          exact (upd_other this).trans ht
  | pushWord w k =>
    have hw := h.push i w k hpc
    simp only [ListConc.step]
    refine ⟨h.keysN, ?_, ?_, ?_⟩
    · intro v hv
      rcases List.mem_append.1 hv with hv | hv
      · exact h.sub v hv
      · rw [List.mem_singleton] at hv
        subst hv; exact hw
    · intro t v j ht
      by_cases e : t = i
      · subst e; simp only [upd_self] at ht; cases ht
      · simp only [upd_other e] at ht; exact h.push t v j ht
    · intro x hx
      rcases h.pend x hx with hx | ⟨t, v, j, ht, hx⟩
      · exact Or.inl (List.mem_append_left _ hx)
      · by_cases e : t = i
        · subst e
          rw [hpc] at ht
          injection ht with h1 h2
          subst h1
          exact Or.inl (List.mem_append_right _ (by rw [hx]; simp))
        · exact Or.inr ⟨t, v, j, (upd_other e).trans ht, hx⟩
  | pushLen w k =>
    exact h.move rfl rfl rfl (by intro w k hc; rw [hpc] at hc; cases hc) (fun _ _ hc => by cases hc)
  | pushNums w k =>
    exact h.move rfl rfl rfl (by intro w k hc; rw [hpc] at hc; cases hc) (fun _ _ hc => by cases hc)
  | countKeys w k =>
    exact mv _ (by intro w k hc; rw [hpc] at hc; cases hc) (fun _ _ hc => by cases hc)
  | countWords w k d =>
    have h1 : ∀ w k, s.pc i ≠ .pushWord w k := by intro w k hc; rw [hpc] at hc; cases hc
    simp only [ListConc.step]
    repeat' split
    all_goals exact mv _ h1 (fun _ _ hc => by cases hc)
  | checkWord w k =>
    have h1 : ∀ w k, s.pc i ≠ .pushWord w k := by intro w k hc; rw [hpc] at hc; cases hc
    simp only [ListConc.step]
    repeat' split
    all_goals exact mv _ h1 (fun _ _ hc => by cases hc)
  | checkLen w k =>
    have h1 : ∀ w k, s.pc i ≠ .pushWord w k := by intro w k hc; rw [hpc] at hc; cases hc
    simp only [ListConc.step]
    repeat' split
    all_goals exact mv _ h1 (fun _ _ hc => by cases hc)
  | write w k acts =>
    have h1 : ∀ w k, s.pc i ≠ .pushWord w k := by intro w k hc; rw [hpc] at hc; cases hc
    cases acts with
    | nil => exact mv _ h1 (fun _ _ hc => by cases hc)
    | cons a acts =>
      obtain ⟨_, _, e3, e4, e5, _⟩ := Act.run_words k s.mem a
      exact h.move e3 e4 e5 h1 (fun _ _ hc => by cases hc)
  | done r =>
    exact mv _ (by intro w k hc; rw [hpc] at hc; cases hc) (fun _ _ hc => by cases hc)

theorem step_ci (c : Call) (m : WL) (p : Pc) :
    (ListConc.step cf c m p).1.caseInsensitive = m.caseInsensitive := by
  cases p with
  | write w k acts =>
    cases acts with
    | nil => rfl
    | cons a acts => exact (Act.run_words k m a).2.2.1
  | _ =>
    simp only [ListConc.step]
    repeat' split
    all_goals rfl

theorem Loose.run (h : Loose cf s) (l : List ℕ) : Loose cf (s.run cf C l) := by
  induction l generalizing s with
  | nil => exact h
  | cons i l ih => exact ih (h.step i)

theorem Loose.start {st : WL} (hi : WLInv cf st) : Loose cf (Sys.start st) :=
  ⟨hi.keys.nodup_iff.2 hi.nodupW, fun _ hw => hi.keys.mem_iff.2 hw, fun t w i h => (by cases h),
    fun _ hx => Or.inl (hi.keys.mem_iff.1 hx)⟩

/-- A list that contains a word twice. -/
structure Stuck (m : WL) : Prop where
  keysN : (Dict.keys m.wordIndices).Nodup
  same : ∀ x, x ∈ Dict.keys m.wordIndices ↔ x ∈ m.wordList
  short : m.wordIndices.length < m.wordList.length

theorem Stuck.addWord (hcf : ∀ w, cf (cf w) = cf w) {m : WL} (h : Stuck m) (v : PyVal) :
    Stuck (m.addWord cf v).1 ∧ (m.addWord cf v).1.caseInsensitive = m.caseInsensitive ∧
    ((m.addWord cf v).1 = m ∨ (m.addWord cf v).2 = .error .assertionError) := by
  unfold WL.addWord
  cases v with
  | int n => exact ⟨h, rfl, Or.inl rfl⟩
  | other => exact ⟨h, rfl, Or.inl rfl⟩
  | str w =>
    simp only
    split
    · exact ⟨h, rfl, Or.inl rfl⟩
    split
    · exact ⟨h, rfl, Or.inl rfl⟩
    rename_i hk
    split
    · exact ⟨h, rfl, Or.inl rfl⟩
    have hres : ∀ w', (m.resolve cf w' = (m, .error .valueError) ∨ (∃ i, m.resolve cf w' = (m, .ok i) ∧
          m.fold cf w' ∈ Dict.keys m.wordIndices) ∨
        (Stuck (m.resolve cf w').1 ∧ (m.resolve cf w').1.caseInsensitive = m.caseInsensitive ∧
          (m.resolve cf w').2 = .error .assertionError)) := by
      intro w'
      unfold WL.resolve
      split
      · exact Or.inl rfl
      simp only
      cases hg : Dict.get? m.wordIndices (m.fold cf w') with
      | some i => exact Or.inr (Or.inl ⟨i, rfl, Dict.mem_keys_iff.2 ⟨i, hg⟩⟩)
      | none =>
        right; right
        have hn := Dict.get?_eq_none.1 hg
        have hlen : (Dict.set m.wordIndices (m.fold cf w') m.wordList.length).length =
            m.wordIndices.length + 1 := by
          rw [set_eq_append hn]; simp
        have hsh := h.short
        simp only
        rw [if_neg]
        · refine ⟨⟨Dict.nodup_keys_set h.keysN _ _, ?_, ?_⟩, rfl, rfl⟩
          · intro x
            rw [Dict.mem_keys_set, h.same, List.mem_append, List.mem_singleton]
            tauto
          · simp only [hlen, List.length_append, List.length_cons, List.length_nil]
            omega
        · rintro ⟨h1, _⟩
          rw [hlen] at h1
          simp only [List.length_append, List.length_cons, List.length_nil] at h1
          omega
    rcases hres (m.fold cf w) with hr | ⟨i, hr, hm⟩ | ⟨h1, h2, h3⟩
    · rw [hr]; exact ⟨h, rfl, Or.inl rfl⟩
    · rw [fold_fold hcf] at hm
      exact absurd (Dict.has_iff.2 hm) hk
    · generalize m.resolve cf (m.fold cf w) = r at h1 h2 h3
      obtain ⟨m', r⟩ := r
      subst h3
      exact ⟨h1, h2, Or.inr rfl⟩

theorem Stuck.run (hcf : ∀ w, cf (cf w) = cf w) {m : WL} (h : Stuck m) (ops : List WLOp) :
    Stuck (m.run cf ops) ∧ (m.run cf ops).caseInsensitive = m.caseInsensitive := by
  induction ops generalizing m with
  | nil => exact ⟨h, rfl⟩
  | cons op ops ih =>
    cases op with
    | lookup _ _ _ => exact ih h
    | add v =>
      obtain ⟨h1, h2, _⟩ := h.addWord hcf v
      obtain ⟨h3, h4⟩ := ih h1
      exact ⟨h3, h4.trans h2⟩

/-- Threads call `add_word`, in whatever way. If, when no call is in progress, the vocabulary lists some
word twice, the list is unusable for good: whatever is called later, one after another, `add_word` of any
word that is not listed raises `AssertionError`. -/
theorem C192_no_more_words (hcf : ∀ w, cf (cf w) = cf w) {st : WL} (hr : st.Reachable cf)
    {sched : List ℕ} (hidle : ∀ i, (((Sys.start st).run cf C sched).pc i).active = false)
    (hdup : ¬ ((Sys.start st).run cf C sched).mem.vocabulary.Nodup) (ops : List WLOp) {v : PyVal}
    {x : List Char} (hv : Adds cf st.caseInsensitive v x)
    (hx : x ∉ (((Sys.start st).run cf C sched).mem.run cf ops).vocabulary) :
    ((((Sys.start st).run cf C sched).mem.run cf ops).addWord cf v).2 = .error .assertionError := by
  have hinv := hr.inv hcf
  have hl := (Loose.start hinv).run (C := C) sched
  have hci : ((Sys.start st).run cf C sched).mem.caseInsensitive = st.caseInsensitive := by
    have : ∀ (l : List ℕ) (s : Sys), (s.run cf C l).mem.caseInsensitive = s.mem.caseInsensitive := by
      intro l
      induction l with
      | nil => intro s; rfl
      | cons i l ih =>
        intro s
        exact (ih (s.step cf C i)).trans (step_ci _ _ _)
    exact this sched _
  generalize (Sys.start st).run cf C sched = s at *
  have hst : Stuck s.mem := by
    have hsame : ∀ x, x ∈ Dict.keys s.mem.wordIndices ↔ x ∈ s.mem.wordList := by
      intro x
      refine ⟨fun h => ?_, hl.sub x⟩
      rcases hl.pend x h with h | ⟨t, w, i, h, _⟩
      · exact h
      · have := hidle t
        rw [h] at this; cases this
    refine ⟨hl.keysN, hsame, ?_⟩
    have hn : ¬ s.mem.wordList.Nodup := fun h =>
      hdup ((List.perm_insertionSort _ _).nodup_iff.2 h)
    have h1 : s.mem.wordList.dedup.length < s.mem.wordList.length := by
      refine lt_of_le_of_ne (List.dedup_sublist _).length_le fun he => hn ?_
      rw [← (List.dedup_sublist _).eq_of_length he]
      exact List.nodup_dedup _
    have h2 : (Dict.keys s.mem.wordIndices).Perm s.mem.wordList.dedup :=
      (List.perm_ext_iff_of_nodup hl.keysN (List.nodup_dedup _)).2
        (fun x => by rw [List.mem_dedup, hsame])
    have h3 := h2.length_eq
    unfold Dict.keys at h3
    rw [List.length_map] at h3
    omega
  obtain ⟨h1, h2⟩ := hst.run hcf ops
  obtain ⟨w, rfl, hw, hfx, hx0, hcl⟩ := hv
  rcases (h1.addWord hcf (.str w)).2.2 with h | h
  · exfalso
    have hf : (s.mem.run cf ops).fold cf w = x := by
      unfold WL.fold; rw [h2, hci]; exact hfx
    have hff : (s.mem.run cf ops).fold cf x = x := by rw [← hf]; exact fold_fold hcf _ _
    have hxl : x ∉ (s.mem.run cf ops).wordList := fun hm =>
      hx ((List.perm_insertionSort _ _).mem_iff.2 hm)
    have hxk : x ∉ Dict.keys (s.mem.run cf ops).wordIndices := fun hm => hxl ((h1.same x).1 hm)
    have h4 := h1.short
    have hset := set_eq_append hxk (s.mem.run cf ops).wordList.length
    unfold WL.addWord at h
    simp only [hf] at h
    rw [if_neg (by simpa using hw), if_neg (by rw [Dict.has_iff]; exact hxk), if_neg] at h
    · unfold WL.resolve at h
      rw [if_neg (by simpa using hx0)] at h
      simp only [hff] at h
      rw [Dict.get?_eq_none.2 hxk] at h
      simp only at h
      rw [if_neg] at h
      · have := congrArg (fun m : WL => m.wordList.length) h
        simp at this
      · rintro ⟨h5, _⟩
        rw [hset] at h5
        simp only [List.length_append, List.length_cons, List.length_nil] at h5
        omega
    · rintro (hc | hc)
      · exact hcl.1 hc
      · exact hcl.2 hc
  · exact h

/-- Both threads see that the word is missing. -/
def twiceSched : List ℕ := [0, 1, 0, 1, 0, 1, 0] ++ List.replicate 60 1 ++ List.replicate 60 0

example (ops : List WLOp) (x : List Char) (h0 : x ≠ []) (hc : Clean x)
    (hx : x ∉ (((Sys.start demo₀).run id sameCalls twiceSched).mem.run id ops).vocabulary) :
    ((((Sys.start demo₀).run id sameCalls twiceSched).mem.run id ops).addWord id (.str x)).2 =
      .error .assertionError := by
  have hd : ∀ i ∈ [0, 1], (((Sys.start demo₀).run id sameCalls twiceSched).pc i).active = false := by
    decide +kernel
  have hm : ∀ i ∈ twiceSched, i ∈ [0, 1] := by decide +kernel
  have hidle : ∀ i, (((Sys.start demo₀).run id sameCalls twiceSched).pc i).active = false := by
    intro i
    by_cases hi : i ∈ twiceSched
    · exact hd i (hm i hi)
    · rw [(run_enter twiceSched _ i).2 ⟨rfl, hi⟩]; rfl
  have hdup : ¬ ((Sys.start demo₀).run id sameCalls twiceSched).mem.vocabulary.Nodup := by
    decide +kernel
  exact C192_no_more_words (cf := id) (fun _ => rfl) demo₀_reachable hidle hdup ops
    ⟨x, rfl, h0, rfl, h0, hc⟩ hx

/-- One of the two calls returned. -/
example : [0, 1].map (fun i => (((Sys.start demo₀).run id sameCalls twiceSched).pc i).outcome) =
      [some (.error .assertionError), some (.ok ())] ∧
    ((Sys.start demo₀).run id sameCalls twiceSched).mem.vocabulary =
      ["banana".toList, "banana".toList] := by decide +kernel

/-! ## C193 -/

/-- A list with one word. -/
def nearState : WL := demo₀.run id [.add (.str "bananas".toList)]

theorem nearState_reachable : nearState.Reachable id :=
  ⟨.iter [3, 2, 3], true, 0, demo₀, [.add (.str "bananas".toList)], by decide +kernel, rfl⟩

/-- A long word and a short one. -/
def nearCalls : ℕ → Call
  | 0 => ⟨.str "xxxxxxxxxxxxxxxxxxxxxxxxxxxxxx".toList, id, id⟩
  | _ => ⟨.str "banana".toList, id, id⟩

/-- Thread 0 has appended its word and its length, but not its number of n-grams, when thread 1 does all
of its work. -/
def nearSched : List ℕ :=
  List.replicate 5 0 ++ List.replicate 5 1 ++ [0] ++ List.replicate 60 1 ++ List.replicate 6 0

/-- When some call has raised because of a race, even words whose `add_word` returned can be lost to
lookups: it is not true that after calls for different words, a word whose call has returned is found by a
lookup of that word itself. -/
theorem C193_other_word_missed :
    ¬ ∀ (st : WL) (C : ℕ → Call) (sched : List ℕ) (i : ℕ) (w : List Char), st.Reachable id →
      (∀ i, (C i).Fair) → AlwaysApart id C (Sys.start st) sched →
      (∀ i, (((Sys.start st).run id C sched).pc i).active = false) →
      (C i).word = .str w → (((Sys.start st).run id C sched).pc i).outcome = some (.ok ()) →
      ∀ res, ((Sys.start st).run id C sched).mem.lookup mean1 id (.str w) (.int 1) true = .ok res →
        res.map Prod.fst = [w] := by
  intro h
  have hm : ∀ i ∈ nearSched, i ∈ [0, 1] := by decide +kernel
  have hd : ∀ i ∈ [0, 1], (((Sys.start nearState).run id nearCalls nearSched).pc i).active = false := by
    decide +kernel
  have hidle : ∀ i, (((Sys.start nearState).run id nearCalls nearSched).pc i).active = false := by
    intro i
    by_cases hi : i ∈ nearSched
    · exact hd i (hm i hi)
    · rw [(run_enter nearSched _ i).2 ⟨rfl, hi⟩]; rfl
  have hf : ∀ i, (nearCalls i).Fair := by
    intro i
    rcases i with _ | i <;> exact ⟨fun l => .refl l, fun l => .refl l⟩
  have ha : AlwaysApart id nearCalls (Sys.start nearState) nearSched := by
    refine alwaysApart_of_test (T := [0, 1]) hm ?_
    have : ∀ n, ∀ i ∈ [0, 1], ∀ j ∈ [0, 1], i ≠ j → target id n (nearCalls i).word ≠
        target id n (nearCalls j).word := by decide +kernel
    intro n _ i hi j hj hij _ _
    exact this _ i hi j hj hij
  have hr : (((Sys.start nearState).run id nearCalls nearSched).pc 1).outcome = some (.ok ()) := by
    decide +kernel
  have hl : ((Sys.start nearState).run id nearCalls nearSched).mem.lookup mean1 id
      (.str "banana".toList) (.int 1) true =
      .ok [("bananas".toList, toLex (1383 / 1820, 163 / 210))] := by decide +kernel
  have := h nearState nearCalls nearSched 1 "banana".toList nearState_reachable hf ha hidle rfl hr _ hl
  revert this
  decide +kernel

end ListConc
end Verif
