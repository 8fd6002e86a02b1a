import Verif.Conc.ListRun

/-!
# Threads that call `add_word`: what is left of a call that raised because of a race
-/

namespace Verif
namespace ListConc

open GramSpec

variable {cf : List Char → List Char} {st : WL} {C : ℕ → Call} {s : Sys}

/-- Where a thread can be, when overlapping calls add different words. -/
def Thread' (m : WL) : Pc → Prop
  | .again w => w ∉ Dict.keys m.wordIndices
  | .fetch _ => False
  | .measure w => w ∉ Dict.keys m.wordIndices
  | .setIndex w _ => w ∉ Dict.keys m.wordIndices
  | .pushWord w _ => w ∈ Dict.keys m.wordIndices ∧ w ∉ m.wordList
  | .pushLen w _ => w ∈ m.wordList
  | .pushNums w _ => w ∈ m.wordList
  | .countKeys w _ => w ∈ m.wordList
  | .countWords w _ _ => w ∈ m.wordList
  | .checkWord w _ => w ∈ m.wordList
  | .checkLen w i => m.wordList[i]? = some w
  | .write w i _ => m.wordList[i]? = some w
  | _ => True

/-- The thread is entering n-grams. -/
def Pc.writing : Pc → Bool
  | .write _ _ _ => true
  | _ => false

/-- The word is stored, without n-grams, and nobody is going to enter them. -/
structure Lost (s : Sys) (x : List Char) : Prop where
  mem : x ∈ s.mem.wordList
  free : ∀ t, (s.pc t).word ≠ some x
  bare : ∀ j, s.mem.wordList[j]? = some x → Unposted s.mem j

/-- The state of a run in which overlapping calls add different words. -/
structure Weak (cf : List Char → List Char) (ci : Bool) (C : ℕ → Call) (s : Sys) : Prop where
  cieq : s.mem.caseInsensitive = ci
  nodupW : s.mem.wordList.Nodup
  sub : ∀ w ∈ s.mem.wordList, w ∈ Dict.keys s.mem.wordIndices
  fold : ∀ t w, (s.pc t).word = some w → s.mem.fold cf w = w
  target : ∀ t w, (s.pc t).word = some w → target cf ci (C t).word = some w
  thread : ∀ t, Thread' s.mem (s.pc t)
  beyond : ∀ j, s.mem.wordList.length ≤ j → Unposted s.mem j
  bare : ∀ t w, (s.pc t).word = some w → (s.pc t).writing = false →
    ∀ j, s.mem.wordList[j]? = some w → Unposted s.mem j
  lost : ∀ t e x, s.pc t = .done (.error e) → Adds cf ci (C t).word x → Lost s x

variable {ci : Bool}

theorem Weak.unique (h : Weak cf ci C s) (ha : Apart cf C s) {i j : ℕ} {w : List Char}
    (hi : (s.pc i).word = some w) (hj : (s.pc j).word = some w) : i = j := by
  by_contra hne
  apply ha i j hne (active_of_word hi) (active_of_word hj)
  rw [h.cieq, h.target i w hi, h.target j w hj]

/-- A step that changes neither words nor indices nor n-grams. -/
theorem Weak.move (h : Weak cf ci C s) {i : ℕ} {p : Pc} {m : WL} (e1 : m.caseInsensitive = s.mem.caseInsensitive)
    (e2 : m.wordIndices = s.mem.wordIndices) (e3 : m.wordList = s.mem.wordList)
    (e4 : ∀ j, Unposted s.mem j → Unposted m j)
    (hw : ∀ w, p.word = some w → s.mem.fold cf w = w ∧ ListConc.target cf ci (C i).word = some w)
    (hT : Thread' s.mem p)
    (hb : ∀ w, p.word = some w → p.writing = false →
      ∀ j, s.mem.wordList[j]? = some w → Unposted s.mem j)
    (hf : ∀ x, Lost s x → p.word ≠ some x)
    (hl : ∀ e x, p = .done (.error e) → Adds cf ci (C i).word x → Lost ⟨m, upd s.pc i p⟩ x) :
    Weak cf ci C ⟨m, upd s.pc i p⟩ := by
  have hfold : ∀ w, m.fold cf w = s.mem.fold cf w := by intro w; unfold WL.fold; rw [e1]
  have hT' : ∀ p, Thread' s.mem p → Thread' m p := by
    intro p hp
    cases p <;> simp only [Thread', e2, e3] at hp ⊢ <;> exact hp
  have hlost : ∀ x, Lost s x → Lost ⟨m, upd s.pc i p⟩ x := by
    intro x hx
    refine ⟨by simp only [e3]; exact hx.mem, ?_, ?_⟩
    · intro t
      by_cases e : t = i
      · subst e; simp only [upd_self]; exact hf x hx
      · simp only [upd_other e]; exact hx.free t
    · intro j hj
      simp only [e3] at hj
      exact e4 j (hx.bare j hj)
  refine ⟨e1.trans h.cieq, by simp only [e3]; exact h.nodupW, by simp only [e2, e3]; exact h.sub, ?_, ?_, ?_,
    ?_, ?_, ?_⟩
  · intro t w ht
    simp only [hfold]
    by_cases e : t = i
    · subst e; simp only [upd_self] at ht; exact (hw w ht).1
    · simp only [upd_other e] at ht; exact h.fold t w ht
  · intro t w ht
    by_cases e : t = i
    · subst e; simp only [upd_self] at ht; exact (hw w ht).2
    · simp only [upd_other e] at ht; exact h.target t w ht
  · intro t
    by_cases e : t = i
    · subst e; simp only [upd_self]; exact hT' _ hT
    · simp only [upd_other e]; exact hT' _ (h.thread t)
  · intro j hj
    simp only [e3] at hj
    exact e4 j (h.beyond j hj)
  · intro t w ht hwr j hj
    simp only [e3] at hj
    by_cases e : t = i
    · subst e; simp only [upd_self] at ht hwr; exact e4 j (hb w ht hwr j hj)
    · simp only [upd_other e] at ht hwr; exact e4 j (h.bare t w ht hwr j hj)
  · intro t e' x ht hx
    by_cases e : t = i
    · subst e; simp only [upd_self] at ht; exact hl e' x ht hx
    · simp only [upd_other e] at ht; exact hlost x (h.lost t e' x ht hx)

/-- The same, when the call keeps its word and does not begin to enter n-grams. -/
theorem Weak.keep (h : Weak cf ci C s) (ha : Apart cf C s) {i : ℕ} {p : Pc} {m : WL}
    (e1 : m.caseInsensitive = s.mem.caseInsensitive)
    (e2 : m.wordIndices = s.mem.wordIndices) (e3 : m.wordList = s.mem.wordList)
    (e4 : ∀ j, Unposted s.mem j → Unposted m j) {w : List Char}
    (hpc : (s.pc i).word = some w) (hwr : (s.pc i).writing = false)
    (hp : p.word = some w ∨ ((∃ r, p = .done r) ∧ w ∈ s.mem.wordList)) (hT : Thread' s.mem p) :
    Weak cf ci C ⟨m, upd s.pc i p⟩ := by
  have hpw : ∀ v, p.word = some v → v = w := by
    intro v hv
    rcases hp with hp | ⟨⟨r, rfl⟩, _⟩
    · rw [hp] at hv; injection hv with hv; exact hv.symm
    · cases hv
  refine h.move e1 e2 e3 e4 ?_ hT ?_ ?_ ?_
  · intro v hv
    rw [hpw v hv]
    exact ⟨h.fold i w hpc, h.target i w hpc⟩
  · intro v hv _ j hj
    rw [hpw v hv] at hj
    exact h.bare i w hpc hwr j hj
  · intro x hx hv
    rw [hpw x hv] at hx
    exact hx.free i hpc
  · rintro e x rfl hx
    have hmem : w ∈ s.mem.wordList := by
      rcases hp with hp | ⟨_, hp⟩
      · cases hp
      · exact hp
    have hxw : x = w := by
      have h1 := h.target i w hpc
      obtain ⟨w₀, h2, _, h3, _⟩ := hx
      rw [h2] at h1
      injection h1 with h1
      exact h3.symm.trans h1
    subst hxw
    refine ⟨by simp only [e3]; exact hmem, ?_, ?_⟩
    · intro t ht
      by_cases e : t = i
      · subst e; simp only [upd_self] at ht; cases ht
      · simp only [upd_other e] at ht; exact e (h.unique ha ht hpc)
    · intro j hj
      simp only [e3] at hj
      exact e4 j (h.bare i x hpc hwr j hj)

theorem Weak.setIndex (h : Weak cf ci C s) (ha : Apart cf C s) {i : ℕ} {w : List Char} {k : ℕ}
    (hpc : s.pc i = .setIndex w k) :
    Weak cf ci C ⟨{ s.mem with wordIndices := Dict.set s.mem.wordIndices w k },
      upd s.pc i (.pushWord w k)⟩ := by
  have hw : (s.pc i).word = some w := by rw [hpc]; rfl
  have ht := h.thread i
  rw [hpc] at ht
  have hnl : w ∉ s.mem.wordList := fun hm => ht (h.sub w hm)
  refine ⟨h.cieq, h.nodupW, fun v hv => Dict.mem_keys_set.2 (Or.inr (h.sub v hv)), ?_, ?_, ?_, h.beyond,
    ?_, ?_⟩
  · intro t v hv
    by_cases e : t = i
    · subst e; simp only [upd_self] at hv; exact h.fold t v (hw.trans hv)
    · simp only [upd_other e] at hv; exact h.fold t v hv
  · intro t v hv
    by_cases e : t = i
    · subst e; simp only [upd_self] at hv; exact h.target t v (hw.trans hv)
    · simp only [upd_other e] at hv; exact h.target t v hv
  · intro t
    by_cases e : t = i
    · subst e; simp only [upd_self]; exact ⟨Dict.mem_keys_set.2 (Or.inl rfl), hnl⟩
    · simp only [upd_other e]
      have hne : (s.pc t).word ≠ some w := fun hc => e (h.unique ha hc hw)
      have hTt := h.thread t
      have key : ∀ v, (s.pc t).word = some v → v ∉ Dict.keys s.mem.wordIndices →
          v ∉ Dict.keys (Dict.set s.mem.wordIndices w k) := by
        intro v hv hn hm
        rcases Dict.mem_keys_set.1 hm with rfl | hm
        · exact hne hv
        · exact hn hm
      revert key hTt
      cases s.pc t with
      | again v => intro hTt key; exact key v rfl hTt
      | measure v => intro hTt key; exact key v rfl hTt
      | setIndex v j => intro hTt key; exact key v rfl hTt
      | pushWord v j => intro hTt key; exact ⟨Dict.mem_keys_set.2 (Or.inr hTt.1), hTt.2⟩
      | _ => intro hTt key; exact hTt
  · intro t v hv hwr j hj
    by_cases e : t = i
    · subst e
      simp only [upd_self] at hv
      injection hv with hv
      subst hv
      exact absurd (List.mem_of_getElem? hj) hnl
    · simp only [upd_other e] at hv hwr; exact h.bare t v hv hwr j hj
  · intro t e' x hp hx
    by_cases e : t = i
    · subst e; simp only [upd_self] at hp; cases hp
    · simp only [upd_other e] at hp
      obtain ⟨h1, h2, h3⟩ := h.lost t e' x hp hx
      refine ⟨h1, ?_, h3⟩
      intro t'
      by_cases e : t' = i
      · subst e; simp only [upd_self]; intro hc; exact h2 t' (hw.trans hc)
      · simp only [upd_other e]; exact h2 t'

theorem Weak.pushWord (h : Weak cf ci C s) (ha : Apart cf C s) {i : ℕ} {w : List Char} {k : ℕ}
    (hpc : s.pc i = .pushWord w k) :
    Weak cf ci C ⟨{ s.mem with wordList := s.mem.wordList ++ [w] }, upd s.pc i (.pushLen w k)⟩ := by
  have hw : (s.pc i).word = some w := by rw [hpc]; rfl
  have ht := h.thread i
  rw [hpc] at ht
  obtain ⟨hk, hnl⟩ := ht
  have hlen : (s.mem.wordList ++ [w]).length = s.mem.wordList.length + 1 := by simp
  refine ⟨h.cieq, ?_, ?_, ?_, ?_, ?_, ?_, ?_, ?_⟩
  · simp only
    rw [List.nodup_append]
    refine ⟨h.nodupW, by simp, ?_⟩
    intro a ha b hb
    rw [List.mem_singleton] at hb
    rintro rfl
    exact hnl (hb ▸ ha)
  · intro v hv
    rcases List.mem_append.1 hv with hv | hv
    · exact h.sub v hv
    · rw [List.mem_singleton] at hv
      subst hv; exact hk
  · intro t v hv
    by_cases e : t = i
    · subst e; simp only [upd_self] at hv; exact h.fold t v (hw.trans hv)
    · simp only [upd_other e] at hv; exact h.fold t v hv
  · intro t v hv
    by_cases e : t = i
    · subst e; simp only [upd_self] at hv; exact h.target t v (hw.trans hv)
    · simp only [upd_other e] at hv; exact h.target t v hv
  · intro t
    by_cases e : t = i
    · subst e; simp only [upd_self]; simp [Thread']
    · simp only [upd_other e]
      have hne : (s.pc t).word ≠ some w := fun hc => e (h.unique ha hc hw)
      have hTt := h.thread t
      have key : ∀ (v : List Char) (j : ℕ), s.mem.wordList[j]? = some v →
          (s.mem.wordList ++ [w])[j]? = some v := fun v j hj => getElem?_concat.2 (Or.inl hj)
      revert hne hTt
      cases s.pc t with
      | pushWord v j =>
        intro hne hTt
        refine ⟨hTt.1, fun hm => ?_⟩
        rcases List.mem_append.1 hm with hm | hm
        · exact hTt.2 hm
        · rw [List.mem_singleton] at hm
          exact hne (congrArg some hm)
      | pushLen v j => intro _ hTt; exact List.mem_append_left _ hTt
      | pushNums v j => intro _ hTt; exact List.mem_append_left _ hTt
      | countKeys v j => intro _ hTt; exact List.mem_append_left _ hTt
      | countWords v j d => intro _ hTt; exact List.mem_append_left _ hTt
      | checkWord v j => intro _ hTt; exact List.mem_append_left _ hTt
      | checkLen v j => intro _ hTt; exact key v j hTt
      | write v j acts => intro _ hTt; exact key v j hTt
      | _ => intro _ hTt; exact hTt
  · intro j hj
    simp only at hj
    exact h.beyond j (by omega)
  · intro t v hv hwr j hj
    simp only at hj
    by_cases e : t = i
    · subst e
      simp only [upd_self] at hv
      injection hv with hv
      subst hv
      rcases getElem?_concat.1 hj with hj | ⟨rfl, _⟩
      · exact absurd (List.mem_of_getElem? hj) hnl
      · exact h.beyond _ (le_refl _)
    · simp only [upd_other e] at hv hwr
      rcases getElem?_concat.1 hj with hj | ⟨_, rfl⟩
      · exact h.bare t v hv hwr j hj
      · exact absurd (h.unique ha hv hw) e
  · intro t e' x hp hx
    by_cases e : t = i
    · subst e; simp only [upd_self] at hp; cases hp
    · simp only [upd_other e] at hp
      obtain ⟨h1, h2, h3⟩ := h.lost t e' x hp hx
      refine ⟨List.mem_append_left _ h1, ?_, ?_⟩
      · intro t'
        by_cases e : t' = i
        · subst e; simp only [upd_self]; intro hc; exact h2 t' (hw.trans hc)
        · simp only [upd_other e]; exact h2 t'
      · intro j hj
        simp only at hj
        rcases getElem?_concat.1 hj with hj | ⟨_, rfl⟩
        · exact h3 j hj
        · exact absurd h1 hnl

theorem Weak.write (h : Weak cf ci C s) (ha : Apart cf C s) {i : ℕ} {w : List Char} {k : ℕ} {a : Act}
    {acts : List Act} (hpc : s.pc i = .write w k (a :: acts)) :
    Weak cf ci C ⟨a.run k s.mem, upd s.pc i (.write w k acts)⟩ := by
  have hw : (s.pc i).word = some w := by rw [hpc]; rfl
  have hL := h.thread i
  rw [hpc] at hL
  change s.mem.wordList[k]? = some w at hL
  obtain ⟨e1, e2, e3, e4, e5, e6, e7⟩ := Act.run_words k s.mem a
  have hfold : ∀ v, (a.run k s.mem).fold cf v = s.mem.fold cf v := by
    intro v; unfold WL.fold; rw [e3]
  have hk : k < s.mem.wordList.length := (List.getElem?_eq_some_iff.1 hL).1
  have hne : ∀ v j, v ≠ w → s.mem.wordList[j]? = some v → j ≠ k := by
    rintro v j hv hj rfl
    rw [hL] at hj
    injection hj with hj
    exact hv hj.symm
  refine ⟨e3.trans h.cieq, by simp only [e5]; exact h.nodupW, by simp only [e4, e5]; exact h.sub, ?_, ?_,
    ?_, ?_, ?_, ?_⟩
  · intro t v hv
    simp only [hfold]
    by_cases e : t = i
    · subst e; simp only [upd_self] at hv; exact h.fold t v (hw.trans hv)
    · simp only [upd_other e] at hv; exact h.fold t v hv
  · intro t v hv
    by_cases e : t = i
    · subst e; simp only [upd_self] at hv; exact h.target t v (hw.trans hv)
    · simp only [upd_other e] at hv; exact h.target t v hv
  · intro t
    by_cases e : t = i
    · subst e; simp only [upd_self, Thread', e5]; exact hL
    · simp only [upd_other e]
      have := h.thread t
      revert this
      cases s.pc t <;> simp only [Thread', e4, e5] <;> exact id
  · intro j hj
    simp only [e5] at hj
    exact (h.beyond j hj).other (by omega) a
  · intro t v hv hwr j hj
    simp only [e5] at hj
    by_cases e : t = i
    · subst e; simp only [upd_self] at hwr; cases hwr
    · simp only [upd_other e] at hv hwr
      refine (h.bare t v hv hwr j hj).other (hne v j ?_ hj) a
      rintro rfl
      exact e (h.unique ha hv hw)
  · intro t e' x hp hx
    by_cases e : t = i
    · subst e; simp only [upd_self] at hp; cases hp
    · simp only [upd_other e] at hp
      obtain ⟨h1, h2, h3⟩ := h.lost t e' x hp hx
      refine ⟨by simp only [e5]; exact h1, ?_, ?_⟩
      · intro t'
        by_cases e : t' = i
        · subst e; simp only [upd_self]; intro hc; exact h2 t' (hw.trans hc)
        · simp only [upd_other e]; exact h2 t'
      · intro j hj
        simp only [e5] at hj
        refine (h3 j hj).other (hne x j ?_ hj) a
        rintro rfl
        exact h2 i hw

theorem Weak.step (hcf : ∀ w, cf (cf w) = cf w) (h : Weak cf ci C s) (ha : Apart cf C s) (i : ℕ) :
    Weak cf ci C (s.step cf C i) := by
  have hs : s.step cf C i = ⟨(ListConc.step cf (C i) s.mem (s.pc i)).1,
    upd s.pc i (ListConc.step cf (C i) s.mem (s.pc i)).2⟩ := rfl
  rw [hs]
  have ht := h.thread i
  have hF := h.fold i
  have hTg := h.target i
  -- a call that ends before it has stored anything
  have hdone : ∀ r, ((∃ e, r = Except.error e) → ∀ x, ¬ Adds cf ci (C i).word x) →
      Weak cf ci C ⟨s.mem, upd s.pc i (.done r)⟩ := by
    intro r hr
    refine h.move rfl rfl rfl (fun _ => id) (fun w hw => ?_) trivial (fun w hw => ?_)
      (fun x _ hw => ?_) (fun e x he hx => ?_)
    · cases hw
    · cases hw
    · cases hw
    · injection he with he
      exact absurd hx (hr ⟨e, he⟩ x)
  cases hpc : s.pc i with
  | enter =>
    cases hword : (C i).word with
    | int n =>
      simp only [ListConc.step, hword]
      exact hdone _ (by rintro _ x ⟨w, h1, _⟩; rw [hword] at h1; cases h1)
    | other =>
      simp only [ListConc.step, hword]
      exact hdone _ (by rintro _ x ⟨w, h1, _⟩; rw [hword] at h1; cases h1)
    | str w =>
      have hA : ∀ x, Adds cf ci (C i).word x →
          w ≠ [] ∧ s.mem.fold cf w = x ∧ x ≠ [] ∧ Clean x := by
        rintro x ⟨w', h1, h2⟩
        rw [hword] at h1
        injection h1 with h1
        subst h1
        rw [← h.cieq] at h2
        exact h2
      simp only [ListConc.step, hword]
      by_cases h0 : w.length = 0
      · rw [if_pos h0]
        exact hdone _ (fun _ x hx => absurd (List.eq_nil_of_length_eq_zero h0) (hA x hx).1)
      rw [if_neg h0]
      by_cases h1 : Dict.has s.mem.wordIndices (s.mem.fold cf w) = true
      · rw [if_pos h1]
        exact hdone _ (by rintro ⟨e, he⟩; cases he)
      rw [if_neg h1]
      by_cases h2 : '\x02' ∈ s.mem.fold cf w ∨ '\x03' ∈ s.mem.fold cf w
      · rw [if_pos h2]
        refine hdone _ (fun _ x hx => ?_)
        obtain ⟨_, rfl, _, h4⟩ := hA x hx
        rcases h2 with h2 | h2
        · exact h4.1 h2
        · exact h4.2 h2
      · rw [if_neg h2]
        have hnk : s.mem.fold cf w ∉ Dict.keys s.mem.wordIndices := by
          rw [← Dict.has_iff]; exact h1
        have hpw : ∀ v, (Pc.again (s.mem.fold cf w)).word = some v → v = s.mem.fold cf w := by
          intro v hv; injection hv with hv; exact hv.symm
        refine h.move rfl rfl rfl (fun _ => id) (fun v hv => ?_) hnk (fun v hv _ j hj => ?_)
          (fun x hx hv => ?_) (fun e x he => ?_)
        · rw [hpw v hv]
          refine ⟨fold_fold hcf _ _, ?_⟩
          rw [hword, ← h.cieq]; rfl
        · rw [hpw v hv] at hj
          exact absurd (h.sub _ (List.mem_of_getElem? hj)) hnk
        · rw [hpw x hv] at hx
          exact hnk (h.sub _ hx.mem)
        · cases he
  | again w =>
    rw [hpc] at ht
    have hff := hF w (by rw [hpc]; rfl)
    simp only [ListConc.step, hff]
    by_cases h0 : w.length = 0
    · rw [if_pos h0]
      refine hdone _ (fun _ x hx => ?_)
      have h1 := hTg w (by rw [hpc]; rfl)
      obtain ⟨w₀, h2, _, h3, h4, _⟩ := hx
      rw [h2] at h1
      injection h1 with h1
      exact h4 (h3.symm.trans (h1.trans (List.eq_nil_of_length_eq_zero h0)))
    · rw [if_neg h0, if_neg (by rw [Dict.has_iff]; exact ht)]
      exact h.keep ha rfl rfl rfl (fun _ => id) (by rw [hpc]; rfl) (by rw [hpc]; rfl) (Or.inl rfl) ht
  | fetch w => rw [hpc] at ht; exact ht.elim
  | measure w =>
    rw [hpc] at ht
    exact h.keep ha rfl rfl rfl (fun _ => id) (by rw [hpc]; rfl) (by rw [hpc]; rfl) (Or.inl rfl) ht
  | setIndex w k =>
    simp only [ListConc.step, hF w (by rw [hpc]; rfl)]
    exact h.setIndex ha hpc
  | pushWord w k =>
    simp only [ListConc.step, hF w (by rw [hpc]; rfl)]
    exact h.pushWord ha hpc
  | pushLen w k =>
    rw [hpc] at ht
    exact h.keep ha rfl rfl rfl (fun _ => id) (by rw [hpc]; rfl) (by rw [hpc]; rfl) (Or.inl rfl) ht
  | pushNums w k =>
    rw [hpc] at ht
    exact h.keep ha rfl rfl rfl (fun _ => id) (by rw [hpc]; rfl) (by rw [hpc]; rfl) (Or.inl rfl) ht
  | countKeys w k =>
    rw [hpc] at ht
    exact h.keep ha rfl rfl rfl (fun _ => id) (by rw [hpc]; rfl) (by rw [hpc]; rfl) (Or.inl rfl) ht
  | countWords w k d =>
    rw [hpc] at ht
    simp only [ListConc.step]
    split
    · exact h.keep ha rfl rfl rfl (fun _ => id) (by rw [hpc]; rfl) (by rw [hpc]; rfl) (Or.inl rfl) ht
    · exact h.keep ha rfl rfl rfl (fun _ => id) (by rw [hpc]; rfl) (by rw [hpc]; rfl)
        (Or.inr ⟨⟨_, rfl⟩, ht⟩) trivial
  | checkWord w k =>
    rw [hpc] at ht
    simp only [ListConc.step, hF w (by rw [hpc]; rfl)]
    cases hL : s.mem.wordList[k]? with
    | none =>
      exact h.keep ha rfl rfl rfl (fun _ => id) (by rw [hpc]; rfl) (by rw [hpc]; rfl)
        (Or.inr ⟨⟨_, rfl⟩, ht⟩) trivial
    | some v =>
      simp only
      by_cases hv : v = w
      · rw [if_pos hv]
        exact h.keep ha rfl rfl rfl (fun _ => id) (by rw [hpc]; rfl) (by rw [hpc]; rfl) (Or.inl rfl)
          (by simp only [Thread']; rw [hL, hv])
      · rw [if_neg hv]
        exact h.keep ha rfl rfl rfl (fun _ => id) (by rw [hpc]; rfl) (by rw [hpc]; rfl)
          (Or.inr ⟨⟨_, rfl⟩, ht⟩) trivial
  | checkLen w k =>
    rw [hpc] at ht
    have hm : w ∈ s.mem.wordList := List.mem_of_getElem? ht
    simp only [ListConc.step]
    cases hL : s.mem.wordLens[k]? with
    | none =>
      exact h.keep ha rfl rfl rfl (fun _ => id) (by rw [hpc]; rfl) (by rw [hpc]; rfl)
        (Or.inr ⟨⟨_, rfl⟩, hm⟩) trivial
    | some l =>
      simp only
      split
      · exact h.keep ha rfl rfl rfl (fun _ => id) (by rw [hpc]; rfl) (by rw [hpc]; rfl) (Or.inl rfl)
          ht
      · exact h.keep ha rfl rfl rfl (fun _ => id) (by rw [hpc]; rfl) (by rw [hpc]; rfl)
          (Or.inr ⟨⟨_, rfl⟩, hm⟩) trivial
  | write w k acts =>
    cases acts with
    | nil => exact hdone _ (by rintro ⟨e, he⟩; cases he)
    | cons a acts => exact h.write ha hpc
  | done r =>
    refine h.move rfl rfl rfl (fun _ => id) (fun w hw => ?_) trivial (fun w hw => ?_)
      (fun x _ hw => ?_) (fun e x he hx => ?_)
    · cases hw
    · cases hw
    · cases hw
    · have hp : s.pc i = .done (.error e) := hpc.trans he
      obtain ⟨h1, h2, h3⟩ := h.lost i e x hp hx
      refine ⟨h1, fun t => ?_, h3⟩
      by_cases e' : t = i
      · subst e'; simp only [upd_self]; intro hc; cases hc
      · simp only [upd_other e']; exact h2 t

theorem Weak.start (hi : WLInv cf st) : Weak cf st.caseInsensitive C (Sys.start st) := by
  have h := Inv.start (C := C) hi
  refine ⟨rfl, hi.nodupW, fun w hw => hi.keys.mem_iff.2 hw, ?_, ?_, fun t => trivial, h.beyond, ?_, ?_⟩
  · intro t w hw; cases hw
  · intro t w hw; cases hw
  · intro t w hw; cases hw
  · intro t e x hp; cases hp

theorem Weak.run (hcf : ∀ w, cf (cf w) = cf w) {l : List ℕ} (h : Weak cf ci C s)
    (ha : AlwaysApart cf C s l) : Weak cf ci C (s.run cf C l) := by
  induction l generalizing s with
  | nil => exact h
  | cons i l ih =>
    refine ih (s := s.step cf C i) (h.step hcf (ha [] List.nil_prefix) i) ?_
    intro l' hl'
    exact ha (i :: l') ((List.prefix_cons_inj i).2 hl')

/-! ### Lookups -/

theorem foldlM_inv {α β : Type} {P : β → Prop} {f : β → α → Except PyErr β}
    (l : List α) (hf : ∀ a ∈ l, ∀ b b', P b → f b a = .ok b' → P b') {b b' : β} (hb : P b)
    (h : l.foldlM f b = .ok b') : P b' := by
  induction l generalizing b with
  | nil => injection h with h; exact h ▸ hb
  | cons a l ih =>
    rw [List.foldlM_cons] at h
    cases hfa : f b a with
    | error e => rw [hfa] at h; cases h
    | ok c =>
      rw [hfa] at h
      exact ih (fun a' ha' => hf a' (List.mem_cons_of_mem _ ha'))
        (hf a List.mem_cons_self b c hb hfa) h

theorem foldl_inv {α β : Type} {P : β → Prop} {f : β → α → β}
    (l : List α) (hf : ∀ a ∈ l, ∀ b, P b → P (f b a)) {b : β} (hb : P b) : P (l.foldl f b) := by
  induction l generalizing b with
  | nil => exact hb
  | cons a l ih =>
    exact ih (fun a' ha' => hf a' (List.mem_cons_of_mem _ ha')) (hf a List.mem_cons_self b hb)

/-- A word without positions takes no part in the second pass. -/
theorem matchScores_unposted {m : WL} {j : ℕ} (h : Unposted m j) {q : List Char} {possible : List ℕ}
    {ms : Dict ℕ (List ℚ)} (hm : m.matchScores q possible = .ok ms) : j ∉ Dict.keys ms := by
  refine foldlM_inv (P := fun ms => j ∉ Dict.keys ms) _ ?_ (by simp [Dict.keys]) hm
  intro nk _ b b' hb hb'
  simp only [bind, Except.bind] at hb'
  split at hb'
  · cases hb'
  injection hb' with hb'
  subst hb'
  refine foldl_inv (P := fun ms => j ∉ Dict.keys ms) _ ?_ hb
  intro gl _ c hc
  refine foldl_inv (P := fun ms => j ∉ Dict.keys ms) _ ?_ hc
  intro e he d hd
  have hje : j ≠ e.1 := by
    rintro rfl
    have := (h gl.1).2.1
    rw [List.filter_eq_nil_iff] at this
    exact this e he (by simp)
  unfold WL.matchStep
  split
  · exact hd
  · intro hmem
    unfold bump at hmem
    rcases Dict.mem_keys_set.1 hmem with hmem | hmem
    · exact hje hmem
    · rcases Dict.mem_keys_set.1 hmem with hmem | hmem
      · exact hje hmem
      · exact hd hmem

theorem mapM_mem {α β : Type} {f : α → Except PyErr β} {l : List α} {l' : List β}
    (h : l.mapM f = .ok l') : ∀ b ∈ l', ∃ a ∈ l, f a = .ok b := by
  induction l generalizing l' with
  | nil =>
    injection h with h
    subst h
    intro b hb; cases hb
  | cons a l ih =>
    rw [List.mapM_cons] at h
    cases ha : f a with
    | error e => rw [ha] at h; cases h
    | ok c =>
      cases hl : l.mapM f with
      | error e => rw [ha, hl] at h; cases h
      | ok cs =>
        rw [ha, hl] at h
        injection h with h
        subst h
        intro b hb
        rcases List.mem_cons.1 hb with rfl | hb
        · exact ⟨a, List.mem_cons_self, ha⟩
        · obtain ⟨a', h1, h2⟩ := ih hl b hb
          exact ⟨a', List.mem_cons_of_mem _ h1, h2⟩

variable {S : Type} [LinearOrder S]

/-- Lookups return only words that have positions. -/
theorem lookup_posted {m : WL} {agg : List ℚ → S} {word topK : PyVal} {normalize : Bool}
    {res : List (List Char × (S ×ₗ ℚ))} (h : m.lookup agg cf word topK normalize = .ok res) :
    ∀ r ∈ res, ∃ j, m.wordList[j]? = some r.1 ∧ ¬ Unposted m j := by
  unfold WL.lookup at h
  simp only [bind, Except.bind] at h
  split at h
  · cases h
  rename_i qk _
  split at h
  · cases h
  rename_i scored hsc
  split at h
  · cases h
  rename_i items hit
  intro r hr
  obtain ⟨p, hp, hpr⟩ := mapM_mem h r hr
  have hp' : p ∈ items := by
    unfold mostCommon at hp
    exact mem_sortDesc.1 (List.mem_of_mem_take hp)
  obtain ⟨p₂, hp₂, hre⟩ := mapM_mem hit p hp'
  have hp₂' : p₂ ∈ scored := by
    unfold mostCommon at hp₂
    exact mem_sortDesc.1 (List.mem_of_mem_take hp₂)
  have hidx : p.1 = p₂.1 := by
    unfold WL.rescore at hre
    simp only [bind, Except.bind] at hre
    split at hre
    · cases hre
    split at hre
    · cases hre
    injection hre with hre
    rw [← hre]
  have hget : m.wordList[p.1]? = some r.1 := by
    unfold pyGet at hpr
    cases hL : m.wordList[p.1]? with
    | none => rw [hL] at hpr; cases hpr
    | some v =>
      rw [hL] at hpr
      injection hpr with hpr
      rw [← hpr]
  refine ⟨p.1, hget, ?_⟩
  intro hun
  unfold WL.lookupSimilarity at hsc
  simp only [bind, Except.bind] at hsc
  split at hsc
  · cases hsc
  split at hsc
  · cases hsc
  split at hsc
  · injection hsc with hsc
    rw [← hsc] at hp₂'
    cases hp₂'
  split at hsc
  · cases hsc
  split at hsc
  · cases hsc
  rename_i ms hms
  split at hsc
  · cases hsc
  rename_i normed hno
  injection hsc with hsc
  rw [← hsc] at hp₂'
  obtain ⟨p₃, hp₃, rfl⟩ := List.mem_map.1 hp₂'
  obtain ⟨p₄, hp₄, hn⟩ := mapM_mem hno p₃ hp₃
  have h34 : p₃.1 = p₄.1 := by
    unfold WL.normalizeRow at hn
    simp only [bind, Except.bind] at hn
    split at hn
    · cases hn
    split at hn
    · split at hn
      · cases hn
      · injection hn with hn; rw [← hn]
    · injection hn with hn; rw [← hn]
  refine matchScores_unposted hun hms ?_
  rw [hidx, h34]
  exact List.mem_map.2 ⟨p₄, hp₄, rfl⟩

end ListConc
end Verif
