import Verif.Conc.ListInv

/-!
# Threads that call `add_word`: the invariant is kept
-/

namespace Verif
namespace ListConc

open GramSpec

variable {cf : List Char → List Char} {st : WL} {C : ℕ → Call} {s : Sys}

theorem fold_of_adds (hcf : ∀ w, cf (cf w) = cf w) {m : WL} {v : PyVal} {w : List Char}
    (h : Adds cf m.caseInsensitive v w) : m.fold cf w = w := by
  obtain ⟨w₀, _, _, rfl, _⟩ := h
  exact fold_fold hcf m w₀

theorem Inv.key_valid (h : Inv cf st C s) {w : List Char}
    (hw : w ∈ Dict.keys s.mem.wordIndices) : Clean w ∧ w ≠ [] := by
  obtain ⟨i, hi⟩ := Dict.mem_keys_iff.1 hw
  rcases (h.index w i).1 hi with hi | ⟨t, ht⟩
  · have := h.words w (List.mem_of_getElem? hi)
    exact ⟨this.1, this.2.1⟩
  · have := h.thread t
    rw [ht] at this
    obtain ⟨w₀, _, _, _, h1, h2⟩ := this.1
    exact ⟨h2, h1⟩

theorem getElem?_concat {ws : List (List Char)} {w v : List Char} {i : ℕ} :
    (ws ++ [w])[i]? = some v ↔ ws[i]? = some v ∨ (i = ws.length ∧ v = w) := by
  rcases Nat.lt_trichotomy i ws.length with h | h | h
  · rw [List.getElem?_append_left h]
    constructor
    · exact Or.inl
    · rintro (h' | ⟨h', _⟩)
      · exact h'
      · omega
  · subst h
    simp [eq_comm]
  · rw [List.getElem?_eq_none (by simp; omega), List.getElem?_eq_none (by omega)]
    simp; omega

theorem eq_dropLast_append {ws : List (List Char)} {w : List Char} {k : ℕ} (h : ws[k]? = some w)
    (hk : k + 1 = ws.length) : ws = ws.dropLast ++ [w] := by
  have hne : ws ≠ [] := by rintro rfl; simp at hk
  have hlast : ws.getLast hne = w := by
    rw [List.getLast_eq_getElem]
    obtain ⟨h1, h2⟩ := List.getElem?_eq_some_iff.1 h
    rw [← h2]
    congr 1; omega
  conv_lhs => rw [← List.dropLast_append_getLast hne, hlast]

/-- `self.__word_indices[word] = _idx`. -/
theorem Inv.setIndex (h : Inv cf st C s) (ha : Apart cf C s) {i : ℕ} {w : List Char} {k : ℕ}
    (hpc : s.pc i = .setIndex w k) :
    Inv cf st C ⟨{ s.mem with wordIndices := Dict.set s.mem.wordIndices w k },
      upd s.pc i (.pushWord w k)⟩ := by
  have ht := h.thread i
  rw [hpc] at ht
  obtain ⟨hadd, hnk, hk⟩ := ht
  have hw : (s.pc i).word = some w := by rw [hpc]; rfl
  have huniq : ∀ t, t ≠ i → (s.pc t).word ≠ some w := fun t hne ht => hne (h.unique ha ht hw)
  refine ⟨h.nList, h.filterN, h.ci, h.nodupN, h.posN, h.nodupW, h.words, Dict.nodup_keys_set h.keysN _ _,
    ?_, ?_, ?_, ?_, ?_, ?_, ?_, ?_, h.beyond, h.old, ?_⟩
  · intro v j
    simp only [Dict.get?_set]
    by_cases e : w = v
    · subst e
      rw [if_pos rfl]
      constructor
      · intro he
        injection he with he
        exact Or.inr ⟨i, by rw [upd_self, he]⟩
      · rintro (hj | ⟨t, ht⟩)
        · exact absurd (Dict.mem_keys_iff.2 ⟨j, (h.index w j).2 (Or.inl hj)⟩) hnk
        · by_cases e : t = i
          · subst e
            rw [upd_self] at ht
            injection ht with _ ht
            rw [ht]
          · rw [upd_other e] at ht
            exact absurd (by rw [ht]; rfl) (huniq t e)
    · rw [if_neg e, h.index]
      refine or_congr_right (exists_congr fun t => ?_)
      by_cases et : t = i
      · subst et
        rw [upd_self, hpc]
        constructor
        · intro he; cases he
        · intro he; injection he with he; exact absurd he e
      · rw [upd_other et]
  · intro t
    by_cases e : t = i
    · subst e; simp only [upd_self]; exact ⟨hadd, hk⟩
    · simp only [upd_other e]; exact (h.thread t).setIndex (huniq t e)
  · intro t v j ht
    by_cases e : t = i
    · subst e; simp only [upd_self] at ht; cases ht
    · simp only [upd_other e] at ht; exact h.lensDue t v j ht
  · intro hno
    refine h.lensOk fun t v j ht => ?_
    by_cases e : t = i
    · subst e; rw [hpc] at ht; cases ht
    · exact hno t v j (by simp only [upd_other e]; exact ht)
  · intro t ht
    by_cases e : t = i
    · subst e; simp only [upd_self] at ht; cases ht
    · simp only [upd_other e] at ht; exact h.numsDue t ht
  · intro hno
    refine h.numsOk fun t => ?_
    by_cases e : t = i
    · subst e; rw [hpc]; rfl
    · have := hno t
      simp only [upd_other e] at this; exact this
  · intro t v j acts ht
    by_cases e : t = i
    · subst e; simp only [upd_self] at ht; cases ht
    · simp only [upd_other e] at ht; exact h.owed t v j acts ht
  · intro j v hj hno
    refine h.paid j v hj fun t acts ht => ?_
    by_cases e : t = i
    · subst e; rw [hpc] at ht; cases ht
    · exact hno t acts (by simp only [upd_other e]; exact ht)
  · intro x hx
    rcases h.new x hx with hx | ⟨t, ht, hx⟩
    · exact Or.inl hx
    · refine Or.inr ⟨t, ?_, hx⟩
      by_cases e : t = i
      · subst e; simp only [upd_self]; intro hc; cases hc
      · simp only [upd_other e]; exact ht

/-- `self.__word_list.append(word)`. -/
theorem Inv.pushWord (hcf : ∀ w, cf (cf w) = cf w) (hfair : ∀ i, (C i).Fair) (h : Inv cf st C s)
    {i : ℕ} {w : List Char} {k : ℕ} (hpc : s.pc i = .pushWord w k)
    (hl : ∀ t, t ≠ i → ¬ Late { s.mem with wordList := s.mem.wordList ++ [w] } (s.pc t)) :
    Inv cf st C ⟨{ s.mem with wordList := s.mem.wordList ++ [w] }, upd s.pc i (.pushLen w k)⟩ := by
  have ht := h.thread i
  rw [hpc] at ht
  obtain ⟨hadd, hk⟩ := ht
  have hfold := fold_of_adds hcf hadd
  have hnew : w ∉ s.mem.wordList := by
    intro hm
    obtain ⟨j, hj, he⟩ := List.getElem_of_mem hm
    have h1 := (h.index w j).2 (Or.inl (List.getElem?_eq_some_iff.2 ⟨hj, he⟩))
    have h2 := (h.index w k).2 (Or.inr ⟨i, hpc⟩)
    rw [h1] at h2
    injection h2 with h2
    omega
  have hlen : (s.mem.wordList ++ [w]).length = s.mem.wordList.length + 1 := by simp
  have hnoLen : ∀ t v j, s.pc t ≠ .pushLen v j := by
    intro t v j ht
    have e : t ≠ i := by rintro rfl; rw [hpc] at ht; cases ht
    apply hl t e
    have := h.thread t
    rw [ht] at this ⊢
    have := this.2.2
    simp only [Late]; omega
  have hnoNum : ∀ t, (s.pc t).numDue = false := by
    intro t
    by_cases e : t = i
    · rw [e, hpc]; rfl
    have h1 := hl t e
    have h2 := h.thread t
    revert h1 h2
    cases s.pc t with
    | pushLen v j => intro h1 h2; exfalso; apply h1; have := h2.2.2; simp only [Late]; omega
    | pushNums v j => intro h1 h2; exfalso; apply h1; have := h2.2.2; simp only [Late]; omega
    | _ => intros; rfl
  refine ⟨h.nList, h.filterN, h.ci, h.nodupN, h.posN, ?_, ?_, h.keysN, ?_, ?_, ?_, ?_, ?_, ?_, ?_, ?_, ?_,
    ?_, ?_⟩
  · simp only
    rw [List.nodup_append]
    refine ⟨h.nodupW, by simp, ?_⟩
    intro a ha b hb
    rw [List.mem_singleton] at hb
    rintro rfl
    exact hnew (hb ▸ ha)
  · intro v hv
    rcases List.mem_append.1 hv with hv | hv
    · exact h.words v hv
    · rw [List.mem_singleton] at hv
      subst hv
      obtain ⟨_, _, _, _, h1, h2⟩ := hadd
      exact ⟨h2, h1, hfold⟩
  · intro v j
    simp only
    rw [h.index, getElem?_concat, or_assoc]
    refine or_congr_right ?_
    constructor
    · rintro ⟨t, ht⟩
      by_cases e : t = i
      · subst e
        rw [hpc] at ht
        injection ht with h1 h2
        exact Or.inl ⟨by rw [← h2, hk], h1.symm⟩
      · exact Or.inr ⟨t, by rw [upd_other e, ht]⟩
    · rintro (⟨rfl, rfl⟩ | ⟨t, ht⟩)
      · exact ⟨i, by rw [hpc, hk]⟩
      · by_cases e : t = i
        · subst e; rw [upd_self] at ht; cases ht
        · rw [upd_other e] at ht; exact ⟨t, ht⟩
  · intro t
    by_cases e : t = i
    · subst e
      simp only [upd_self]
      exact ⟨hadd, by simp only; rw [getElem?_concat]; exact Or.inr ⟨hk, rfl⟩, by simp only; omega⟩
    · simp only [upd_other e]; exact (h.thread t).pushWord (hl t e)
  · intro t v j ht
    simp only [List.dropLast_concat]
    exact h.lensOk hnoLen
  · intro hno
    exact absurd (upd_self s.pc i _) (hno i w k)
  · intro t ht
    simp only [List.dropLast_concat]
    exact h.numsOk hnoNum
  · intro hno
    have := hno i
    simp only [upd_self] at this
    cases this
  · intro t v j acts ht
    by_cases e : t = i
    · subst e
      simp only [upd_self] at ht
      injection ht with ht; injection ht with h1 h2; injection h2 with h2 h3
      subst h1 h2 h3
      exact (h.beyond k (by omega)).posted h.nodupN h.posN (hfair t) w
    · simp only [upd_other e] at ht; exact h.owed t v j acts ht
  · intro j v hj hno
    simp only at hj
    rcases getElem?_concat.1 hj with hj | ⟨rfl, rfl⟩
    · refine h.paid j v hj fun t acts ht => ?_
      by_cases e : t = i
      · subst e; rw [hpc] at ht; cases ht
      · exact hno t acts (by simp only [upd_other e]; exact ht)
    · exact absurd (by simp only [upd_self]; rw [← hk]; rfl) (hno i _)
  · intro j hj
    simp only at hj
    exact h.beyond j (by omega)
  · intro x hx
    exact List.mem_append_left _ (h.old x hx)
  · intro x hx
    rcases List.mem_append.1 hx with hx | hx
    · rcases h.new x hx with hx | ⟨t, ht, hx⟩
      · exact Or.inl hx
      · refine Or.inr ⟨t, ?_, hx⟩
        by_cases e : t = i
        · subst e; simp only [upd_self]; intro hc; cases hc
        · simp only [upd_other e]; exact ht
    · rw [List.mem_singleton] at hx
      subst hx
      refine Or.inr ⟨i, ?_, h.ci ▸ hadd⟩
      simp only [upd_self]; intro hc; cases hc

/-- `self.__word_lens.append(len(word))`. -/
theorem Inv.pushLen (h : Inv cf st C s) (ha : Apart cf C s) {i : ℕ} {w : List Char} {k : ℕ}
    (hpc : s.pc i = .pushLen w k) :
    Inv cf st C ⟨{ s.mem with wordLens := s.mem.wordLens ++ [w.length] },
      upd s.pc i (.pushNums w k)⟩ := by
  have ht := h.thread i
  rw [hpc] at ht
  obtain ⟨hadd, hL, hk⟩ := ht
  have hw : (s.pc i).word = some w := by rw [hpc]; rfl
  have hno : ∀ t v j, t ≠ i → s.pc t ≠ .pushLen v j := by
    intro t v j hne ht
    have h1 := h.thread t
    rw [ht] at h1
    have : j = k := by have := h1.2.2; omega
    subst this
    have h2 := h1.2.1
    rw [hL] at h2
    injection h2 with h2
    exact hne (h.unique ha (by rw [ht, h2]; rfl) hw)
  refine ⟨h.nList, h.filterN, h.ci, h.nodupN, h.posN, h.nodupW, h.words, h.keysN, ?_, ?_, ?_, ?_, ?_, ?_,
    ?_, ?_, h.beyond, h.old, ?_⟩
  · intro v j
    rw [h.index]
    refine or_congr_right (exists_congr fun t => ?_)
    by_cases e : t = i
    · subst e
      simp only [upd_self]
      rw [hpc]
      constructor <;> (intro hc; cases hc)
    · simp only [upd_other e]
  · intro t
    by_cases e : t = i
    · subst e; simp only [upd_self]; exact ⟨hadd, hL, hk⟩
    · simp only [upd_other e]; exact (h.thread t).congr rfl rfl rfl
  · intro t v j ht
    by_cases e : t = i
    · subst e; simp only [upd_self] at ht; cases ht
    · simp only [upd_other e] at ht; exact absurd ht (hno t v j e)
  · intro _
    simp only
    rw [h.lensDue i w k hpc]
    conv_rhs => rw [eq_dropLast_append hL hk]
    simp
  · intro t ht
    by_cases e : t = i
    · exact h.numsDue i (by rw [hpc]; rfl)
    · simp only [upd_other e] at ht; exact h.numsDue t ht
  · intro hno
    have := hno i
    simp only [upd_self] at this
    cases this
  · intro t v j acts ht
    by_cases e : t = i
    · subst e
      simp only [upd_self] at ht
      exact h.owed t v j acts (by rw [hpc]; exact ht)
    · simp only [upd_other e] at ht; exact h.owed t v j acts ht
  · intro j v hj hno
    refine h.paid j v hj fun t acts ht => hno t acts ?_
    by_cases e : t = i
    · subst e; simp only [upd_self]; rw [hpc] at ht; exact ht
    · simp only [upd_other e]; exact ht
  · intro x hx
    rcases h.new x hx with hx | ⟨t, ht, hx⟩
    · exact Or.inl hx
    · refine Or.inr ⟨t, ?_, hx⟩
      by_cases e : t = i
      · subst e; simp only [upd_self]; intro hc; cases hc
      · simp only [upd_other e]; exact ht

/-- `self.__word_num_grams.append(...)`. -/
theorem Inv.pushNums (h : Inv cf st C s) (ha : Apart cf C s) {i : ℕ} {w : List Char} {k : ℕ}
    (hpc : s.pc i = .pushNums w k) :
    Inv cf st C ⟨{ s.mem with
        wordNumGrams := s.mem.wordNumGrams ++ [s.mem.nList.map (numGrams w.length)] },
      upd s.pc i (.countKeys w k)⟩ := by
  have ht := h.thread i
  rw [hpc] at ht
  obtain ⟨hadd, hL, hk⟩ := ht
  have hw : (s.pc i).word = some w := by rw [hpc]; rfl
  have hno : ∀ t, t ≠ i → (s.pc t).numDue = false := by
    intro t hne
    have h1 := h.thread t
    have h3 : ∀ v j, (s.pc t).word = some v → s.mem.wordList[j]? = some v →
        j + 1 = s.mem.wordList.length → False := by
      intro v j hv hj hj1
      have : j = k := by omega
      subst this
      rw [hL] at hj
      injection hj with hj
      exact hne (h.unique ha (by rw [hv, hj]) hw)
    revert h1 h3
    cases s.pc t with
    | pushLen v j => intro h1 h3; exact (h3 v j rfl h1.2.1 h1.2.2).elim
    | pushNums v j => intro h1 h3; exact (h3 v j rfl h1.2.1 h1.2.2).elim
    | _ => intros; rfl
  refine ⟨h.nList, h.filterN, h.ci, h.nodupN, h.posN, h.nodupW, h.words, h.keysN, ?_, ?_, ?_, ?_, ?_, ?_,
    ?_, ?_, h.beyond, h.old, ?_⟩
  · intro v j
    rw [h.index]
    refine or_congr_right (exists_congr fun t => ?_)
    by_cases e : t = i
    · subst e
      simp only [upd_self]
      rw [hpc]
      constructor <;> (intro hc; cases hc)
    · simp only [upd_other e]
  · intro t
    by_cases e : t = i
    · subst e; simp only [upd_self]; exact ⟨hadd, hL, hk⟩
    · simp only [upd_other e]; exact (h.thread t).congr rfl rfl rfl
  · intro t v j ht
    by_cases e : t = i
    · subst e; simp only [upd_self] at ht; cases ht
    · simp only [upd_other e] at ht; exact h.lensDue t v j ht
  · intro hn
    refine h.lensOk fun t v j ht => ?_
    by_cases e : t = i
    · subst e; rw [hpc] at ht; cases ht
    · exact hn t v j (by simp only [upd_other e]; exact ht)
  · intro t ht
    by_cases e : t = i
    · subst e; simp only [upd_self] at ht; cases ht
    · simp only [upd_other e] at ht; rw [hno t e] at ht; cases ht
  · intro _
    simp only
    rw [h.numsDue i (by rw [hpc]; rfl)]
    conv_rhs => rw [eq_dropLast_append hL hk]
    simp
  · intro t v j acts ht
    by_cases e : t = i
    · subst e
      simp only [upd_self] at ht
      exact h.owed t v j acts (by rw [hpc]; exact ht)
    · simp only [upd_other e] at ht; exact h.owed t v j acts ht
  · intro j v hj hno
    refine h.paid j v hj fun t acts ht => hno t acts ?_
    by_cases e : t = i
    · subst e; simp only [upd_self]; rw [hpc] at ht; exact ht
    · simp only [upd_other e]; exact ht
  · intro x hx
    rcases h.new x hx with hx | ⟨t, ht, hx⟩
    · exact Or.inl hx
    · refine Or.inr ⟨t, ?_, hx⟩
      by_cases e : t = i
      · subst e; simp only [upd_self]; intro hc; cases hc
      · simp only [upd_other e]; exact ht

theorem Act.run_words (k : ℕ) (m : WL) (a : Act) :
    (a.run k m).nList = m.nList ∧ (a.run k m).filterN = m.filterN ∧
    (a.run k m).caseInsensitive = m.caseInsensitive ∧ (a.run k m).wordIndices = m.wordIndices ∧
    (a.run k m).wordList = m.wordList ∧ (a.run k m).wordLens = m.wordLens ∧
    (a.run k m).wordNumGrams = m.wordNumGrams := by
  cases a <;> exact ⟨rfl, rfl, rfl, rfl, rfl, rfl, rfl⟩

/-- Entering something into the dictionaries of n-grams. -/
theorem Inv.write (h : Inv cf st C s) (ha : Apart cf C s) {i : ℕ} {w : List Char} {k : ℕ} {a : Act}
    {acts : List Act} (hpc : s.pc i = .write w k (a :: acts)) :
    Inv cf st C ⟨a.run k s.mem, upd s.pc i (.write w k acts)⟩ := by
  have ht := h.thread i
  rw [hpc] at ht
  obtain ⟨hadd, hL⟩ := ht
  have hw : (s.pc i).word = some w := by rw [hpc]; rfl
  obtain ⟨e1, e2, e3, e4, e5, e6, e7⟩ := Act.run_words k s.mem a
  have hfold : ∀ v, (a.run k s.mem).fold cf v = s.mem.fold cf v := by
    intro v; unfold WL.fold; rw [e3]
  have hne : ∀ t, t ≠ i → ∀ v j l, (s.pc t).owes (C t) s.mem.nList s.mem.filterN = some (v, j, l) →
      j ≠ k := by
    intro t hti v j l ho
    rintro rfl
    have := h.owes_at ho
    rw [hL] at this
    injection this with this
    exact hti (h.unique ha (by rw [owes_word ho, this]) hw)
  refine ⟨e1.trans h.nList, e2.trans h.filterN, e3.trans h.ci, by simp only [e1]; exact h.nodupN,
    by simp only [e1]; exact h.posN, by simp only [e5]; exact h.nodupW, ?_,
    by simp only [e4]; exact h.keysN, ?_, ?_, ?_, ?_, ?_, ?_, ?_, ?_, ?_, ?_, ?_⟩
  · simp only [e5, hfold]; exact h.words
  · intro v j
    simp only [e4, e5]
    rw [h.index]
    refine or_congr_right (exists_congr fun t => ?_)
    by_cases e : t = i
    · subst e
      simp only [upd_self]
      rw [hpc]
      constructor <;> (intro hc; cases hc)
    · simp only [upd_other e]
  · intro t
    by_cases e : t = i
    · subst e
      simp only [upd_self]
      exact ⟨by simp only [e3]; exact hadd, by simp only [e5]; exact hL⟩
    · simp only [upd_other e]; exact (h.thread t).congr e3 e4 e5
  · intro t v j ht
    simp only [e5, e6]
    by_cases e : t = i
    · subst e; simp only [upd_self] at ht; cases ht
    · simp only [upd_other e] at ht; exact h.lensDue t v j ht
  · intro hn
    simp only [e5, e6]
    refine h.lensOk fun t v j ht => ?_
    by_cases e : t = i
    · subst e; rw [hpc] at ht; cases ht
    · exact hn t v j (by simp only [upd_other e]; exact ht)
  · intro t ht
    simp only [e5, e7, e1]
    by_cases e : t = i
    · subst e; simp only [upd_self] at ht; cases ht
    · simp only [upd_other e] at ht; exact h.numsDue t ht
  · intro hno
    simp only [e5, e7, e1]
    refine h.numsOk fun t => ?_
    by_cases e : t = i
    · subst e; rw [hpc]; rfl
    · have := hno t
      simp only [upd_other e] at this; exact this
  · intro t v j l ht
    by_cases e : t = i
    · subst e
      simp only [upd_self] at ht
      injection ht with ht; injection ht with h1 h2; injection h2 with h2 h3
      subst h1 h2 h3
      exact (h.owed t w k _ (by rw [hpc]; rfl)).run
    · simp only [upd_other e, e1, e2] at ht
      exact (h.owed t v j l ht).other (hne t e v j l ht) a
  · intro j v hj hno
    simp only [e5] at hj
    have hjk : j ≠ k := by
      rintro rfl
      rw [hL] at hj
      injection hj with hj
      subst hj
      exact hno i acts (by simp only [upd_self]; rfl)
    refine (h.paid j v hj fun t l ht => ?_).other hjk a
    by_cases e : t = i
    · subst e
      rw [hpc] at ht
      injection ht with ht; injection ht with h1 h2; injection h2 with h2 h3
      exact hjk h2.symm
    · exact hno t l (by simp only [upd_other e, e1, e2]; exact ht)
  · intro j hj
    simp only [e5] at hj
    have hk : k < s.mem.wordList.length := (List.getElem?_eq_some_iff.1 hL).1
    exact (h.beyond j hj).other (by omega) a
  · simp only [e5]; exact h.old
  · intro x hx
    simp only [e5] at hx
    rcases h.new x hx with hx | ⟨t, ht, hx⟩
    · exact Or.inl hx
    · refine Or.inr ⟨t, ?_, hx⟩
      by_cases e : t = i
      · subst e; simp only [upd_self]; intro hc; cases hc
      · simp only [upd_other e]; exact ht

/-- A step keeps the invariant, unless some thread comes too late or raises. -/
theorem Inv.step (hcf : ∀ w, cf (cf w) = cf w) (hfair : ∀ i, (C i).Fair) (h : Inv cf st C s)
    (ha : Apart cf C s) (i : ℕ)
    (hl : ∀ t, ¬ Late (s.step cf C i).mem ((s.step cf C i).pc t))
    (hq : ∀ t e x, (s.step cf C i).pc t = .done (.error e) →
      ¬ Adds cf st.caseInsensitive (C t).word x) : Inv cf st C (s.step cf C i) := by
  have hs : s.step cf C i = ⟨(ListConc.step cf (C i) s.mem (s.pc i)).1,
    upd s.pc i (ListConc.step cf (C i) s.mem (s.pc i)).2⟩ := rfl
  rw [hs] at hl hq ⊢
  have ht := h.thread i
  cases hpc : s.pc i with
  | enter =>
    have mv : ∀ p, Thread cf s.mem (C i) p → p.numDue = false → p.owes (C i) s.mem.nList s.mem.filterN = none →
        (∀ w k, p ≠ .pushWord w k) → (∀ w k, p ≠ .pushLen w k) →
        Inv cf st C ⟨s.mem, upd s.pc i p⟩ := by
      intro p hT h3 h4 h1 h2
      refine h.move hT (fun w k => ?_) (fun w k => ?_) (by rw [h3, hpc]; rfl)
        (Or.inl (by rw [h4, hpc]; rfl)) (Or.inr hpc)
      · rw [hpc]; exact ⟨fun hc => absurd hc (h1 w k), fun hc => by cases hc⟩
      · rw [hpc]; exact ⟨fun hc => absurd hc (h2 w k), fun hc => by cases hc⟩
    have hdone : ∀ r, r = addResult cf s.mem.caseInsensitive (C i).word →
        (∀ x, Adds cf s.mem.caseInsensitive (C i).word x → x ∈ Dict.keys s.mem.wordIndices) →
        Inv cf st C ⟨s.mem, upd s.pc i (.done r)⟩ := fun r h1 h2 =>
      mv _ ⟨h1, h2⟩ rfl rfl (fun _ _ hc => by cases hc) (fun _ _ hc => by cases hc)
    cases hword : (C i).word with
    | int n =>
      simp only [ListConc.step, hword]
      refine hdone _ (by rw [hword]; rfl) ?_
      rintro x ⟨w, h1, _⟩
      rw [hword] at h1; cases h1
    | other =>
      simp only [ListConc.step, hword]
      refine hdone _ (by rw [hword]; rfl) ?_
      rintro x ⟨w, h1, _⟩
      rw [hword] at h1; cases h1
    | str w =>
      have hA : ∀ x, Adds cf s.mem.caseInsensitive (C i).word x →
          w ≠ [] ∧ s.mem.fold cf w = x ∧ x ≠ [] ∧ Clean x := by
        rintro x ⟨w', h1, h2⟩
        rw [hword] at h1
        injection h1 with h1
        subst h1; exact h2
      have hres : addResult cf s.mem.caseInsensitive (C i).word =
          if w = [] then .error .valueError
          else if ¬ ('\x02' ∉ s.mem.fold cf w ∧ '\x03' ∉ s.mem.fold cf w) then .error .assertionError
          else if s.mem.fold cf w = [] then .error .valueError else .ok () := by
        rw [hword]; rfl
      simp only [ListConc.step, hword]
      by_cases h0 : w = []
      · subst h0
        exact hdone _ hres.symm (fun x hx => absurd rfl (hA x hx).1)
      rw [if_neg (by simpa using h0)]
      by_cases h1 : Dict.has s.mem.wordIndices (s.mem.fold cf w) = true
      · rw [if_pos h1]
        rw [Dict.has_iff] at h1
        have h2 := h.key_valid h1
        refine hdone _ ?_ ?_
        · rw [hres, if_neg h0, if_neg (fun hh => hh h2.1), if_neg h2.2]
        · intro x hx
          rw [← (hA x hx).2.1]; exact h1
      rw [if_neg h1]
      by_cases h2 : '\x02' ∈ s.mem.fold cf w ∨ '\x03' ∈ s.mem.fold cf w
      · rw [if_pos h2]
        have h3 : ¬ ('\x02' ∉ s.mem.fold cf w ∧ '\x03' ∉ s.mem.fold cf w) := by
          rintro ⟨h3, h4⟩
          rcases h2 with h2 | h2
          · exact h3 h2
          · exact h4 h2
        refine hdone _ ?_ ?_
        · rw [hres, if_neg h0, if_pos h3]
        · intro x hx
          obtain ⟨_, rfl, _, h4⟩ := hA x hx
          exact absurd h4 h3
      · rw [if_neg h2]
        rw [not_or] at h2
        refine mv _ ⟨⟨w, hword, h0, rfl, h2⟩, ?_⟩ rfl rfl (fun _ _ hc => by cases hc)
          (fun _ _ hc => by cases hc)
        rw [← Dict.has_iff]; exact h1
  | again w =>
    rw [hpc] at ht
    obtain ⟨⟨w₀, hword, hw₀, hf, hcl⟩, hnk⟩ := ht
    have hff : s.mem.fold cf w = w := by rw [← hf]; exact fold_fold hcf _ _
    have mv : ∀ p, Thread cf s.mem (C i) p → p.numDue = false → p.owes (C i) s.mem.nList s.mem.filterN = none →
        (∀ w k, p ≠ .pushWord w k) → (∀ w k, p ≠ .pushLen w k) → p ≠ .enter →
        Inv cf st C ⟨s.mem, upd s.pc i p⟩ := by
      intro p hT h3 h4 h1 h2 h5
      refine h.move hT (fun w k => ?_) (fun w k => ?_) (by rw [h3, hpc]; rfl)
        (Or.inl (by rw [h4, hpc]; rfl)) (Or.inl h5)
      · rw [hpc]; exact ⟨fun hc => absurd hc (h1 w k), fun hc => by cases hc⟩
      · rw [hpc]; exact ⟨fun hc => absurd hc (h2 w k), fun hc => by cases hc⟩
    simp only [ListConc.step, hff]
    by_cases h0 : w = []
    · rw [if_pos (by simpa using h0)]
      refine mv _ ⟨?_, ?_⟩ rfl rfl (fun _ _ hc => by cases hc) (fun _ _ hc => by cases hc)
        (fun hc => by cases hc)
      · rw [hword]
        have : addResult cf s.mem.caseInsensitive (.str w₀) =
          if w₀ = [] then .error .valueError
          else if ¬ ('\x02' ∉ s.mem.fold cf w₀ ∧ '\x03' ∉ s.mem.fold cf w₀) then .error .assertionError
          else if s.mem.fold cf w₀ = [] then .error .valueError else .ok () := rfl
        rw [this, hf, if_neg hw₀, if_neg (fun hh => hh hcl), if_pos h0]
      · rintro x ⟨w', h1, _, h2, h3, _⟩
        rw [hword] at h1
        injection h1 with h1
        subst h1
        exact absurd (h2.symm.trans (hf.trans h0)) h3
    · rw [if_neg (by simpa using h0), if_neg (by rw [Dict.has_iff]; exact hnk)]
      exact mv _ ⟨⟨w₀, hword, hw₀, hf, h0, hcl⟩, hnk⟩ rfl rfl (fun _ _ hc => by cases hc)
        (fun _ _ hc => by cases hc) (fun hc => by cases hc)
  | fetch w => rw [hpc] at ht; exact ht.elim
  | measure w =>
    rw [hpc] at ht
    refine h.move (p := .setIndex w s.mem.wordList.length) ⟨ht.1, ht.2, rfl⟩ ?_ ?_ ?_ (Or.inl ?_) (Or.inl ?_)
    · intro v k; rw [hpc]; constructor <;> (intro hc; cases hc)
    · intro v k; rw [hpc]; constructor <;> (intro hc; cases hc)
    · rw [hpc]; rfl
    · rw [hpc]; rfl
    · intro hc; cases hc
  | setIndex w k =>
    rw [hpc] at ht
    simp only [ListConc.step, fold_of_adds hcf ht.1]
    exact h.setIndex ha hpc
  | pushWord w k =>
    rw [hpc] at ht hl
    simp only [ListConc.step, fold_of_adds hcf ht.1] at hl ⊢
    refine h.pushWord hcf hfair hpc fun t hti => ?_
    have := hl t
    rw [upd_other hti] at this
    exact this
  | pushLen w k =>
    rw [hpc] at ht
    simp only [ListConc.step, fold_of_adds hcf ht.1]
    exact h.pushLen ha hpc
  | pushNums w k =>
    rw [hpc] at ht
    simp only [ListConc.step, fold_of_adds hcf ht.1]
    exact h.pushNums ha hpc
  | countKeys w k =>
    rw [hpc] at ht
    refine h.move (p := .countWords w k s.mem.wordIndices.length) ht ?_ ?_ ?_ (Or.inl ?_) (Or.inl ?_)
    · intro v j; rw [hpc]; constructor <;> (intro hc; cases hc)
    · intro v j; rw [hpc]; constructor <;> (intro hc; cases hc)
    · rw [hpc]; rfl
    · rw [hpc]; rfl
    · intro hc; cases hc
  | countWords w k d =>
    rw [hpc] at ht hq
    simp only [ListConc.step] at hq ⊢
    by_cases hc : d = s.mem.wordList.length ∧ s.mem.wordList.length = k + 1
    · rw [if_pos hc]
      refine h.move (p := .checkWord w k) ⟨ht.1, ht.2.1⟩ ?_ ?_ ?_ (Or.inl ?_) (Or.inl ?_)
      · intro v j; rw [hpc]; constructor <;> (intro hc; cases hc)
      · intro v j; rw [hpc]; constructor <;> (intro hc; cases hc)
      · rw [hpc]; rfl
      · rw [hpc]; rfl
      · intro hc; cases hc
    · rw [if_neg hc] at hq
      exact absurd (h.ci ▸ ht.1) (hq i _ w (upd_self _ _ _))
  | checkWord w k =>
    rw [hpc] at ht
    simp only [ListConc.step, fold_of_adds hcf ht.1, ht.2, if_true]
    refine h.move (p := .checkLen w k) ht ?_ ?_ ?_ (Or.inl ?_) (Or.inl ?_)
    · intro v j; rw [hpc]; constructor <;> (intro hc; cases hc)
    · intro v j; rw [hpc]; constructor <;> (intro hc; cases hc)
    · rw [hpc]; rfl
    · rw [hpc]; rfl
    · intro hc; cases hc
  | checkLen w k =>
    rw [hpc] at ht hq
    simp only [ListConc.step] at hq ⊢
    cases hL : s.mem.wordLens[k]? with
    | none =>
      rw [hL] at hq
      exact absurd (h.ci ▸ ht.1) (hq i _ w (upd_self _ _ _))
    | some l =>
      rw [hL] at hq
      simp only at hq ⊢
      by_cases hc : l = (s.mem.fold cf w).length
      · rw [if_pos hc]
        refine h.move (p := .write w k _) ht ?_ ?_ ?_ (Or.inl ?_) (Or.inl ?_)
        · intro v j; rw [hpc]; constructor <;> (intro hc; cases hc)
        · intro v j; rw [hpc]; constructor <;> (intro hc; cases hc)
        · rw [hpc]; rfl
        · rw [hpc]; rfl
        · intro hc; cases hc
      · rw [if_neg hc] at hq
        exact absurd (h.ci ▸ ht.1) (hq i _ w (upd_self _ _ _))
  | write w k acts =>
    rw [hpc] at ht
    cases acts with
    | nil =>
      refine h.move (p := .done (.ok ())) ⟨(addResult_ok ht.1).symm, ?_⟩ ?_ ?_ ?_ (Or.inr ⟨rfl, w, k, ?_⟩)
        (Or.inl ?_)
      · rintro x ⟨w', h1, _, h2, _⟩
        obtain ⟨⟨w'', h3, _, h4, _⟩, h5⟩ := ht
        rw [h1] at h3
        injection h3 with h3
        subst h3
        have : x = w := h2.symm.trans h4
        subst this
        exact Dict.mem_keys_iff.2 ⟨k, (h.index x k).2 (Or.inl h5)⟩
      · intro v j; rw [hpc]; constructor <;> (intro hc; cases hc)
      · intro v j; rw [hpc]; constructor <;> (intro hc; cases hc)
      · rw [hpc]; rfl
      · rw [hpc]; rfl
      · intro hc; cases hc
    | cons a acts => exact h.write ha hpc
  | done r =>
    rw [hpc] at ht
    refine h.move (p := .done r) ht ?_ ?_ ?_ (Or.inl ?_) (Or.inl ?_)
    · intro v j; rw [hpc]
    · intro v j; rw [hpc]
    · rw [hpc]
    · rw [hpc]
    · intro hc; cases hc

end ListConc
end Verif
