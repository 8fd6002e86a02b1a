import Verif.Conc.ListPosted

/-!
# Threads that call `add_word`: the invariant of runs without a race
-/

namespace Verif
namespace ListConc

open GramSpec

variable {cf : List Char → List Char}

/-- What `add_word` returns or raises, according to its argument. -/
def addResult (cf : List Char → List Char) (ci : Bool) : PyVal → Except PyErr Unit
  | .str w =>
    if w = [] then .error .valueError
    else if ¬ ('\x02' ∉ (if ci then cf w else w) ∧ '\x03' ∉ (if ci then cf w else w)) then
      .error .assertionError
    else if (if ci then cf w else w) = [] then .error .valueError
    else .ok ()
  | _ => .error .typeError

theorem addWord_result (hcf : ∀ w, cf (cf w) = cf w) {st : WL} (hi : WLInv cf st) (v : PyVal) :
    (st.addWord cf v).2 = addResult cf st.caseInsensitive v := by
  rw [addWord_cases hcf hi]
  cases v with
  | int i => rfl
  | other => rfl
  | str w =>
    simp only [addResult]
    change _ = if w = [] then _ else if ¬ ('\x02' ∉ st.fold cf w ∧ '\x03' ∉ st.fold cf w) then _
      else if st.fold cf w = [] then _ else _
    by_cases h1 : w = []
    · rw [if_pos h1, if_pos h1]
    rw [if_neg h1, if_neg h1]
    by_cases h2 : st.fold cf w ∈ st.wordList
    · have := hi.words _ h2
      rw [if_pos h2, if_neg (fun hh => hh this.1), if_neg this.2.1]
    · rw [if_neg h2]
      split <;> [rfl; skip]
      split <;> rfl

theorem addResult_ok {ci : Bool} {v : PyVal} {x : List Char} (h : Adds cf ci v x) :
    addResult cf ci v = .ok () := by
  obtain ⟨w, rfl, h1, rfl, h2, h3⟩ := h
  simp only [addResult, if_neg h1]
  rw [if_neg (fun hh => hh h3), if_neg h2]

/-- The word of a call in progress. -/
def Pc.word : Pc → Option (List Char)
  | .enter => none
  | .again w => some w
  | .fetch w => some w
  | .measure w => some w
  | .setIndex w _ => some w
  | .pushWord w _ => some w
  | .pushLen w _ => some w
  | .pushNums w _ => some w
  | .countKeys w _ => some w
  | .countWords w _ _ => some w
  | .checkWord w _ => some w
  | .checkLen w _ => some w
  | .write w _ _ => some w
  | .done _ => none

/-- The thread has extended the list of words but not that of the numbers of n-grams. -/
def Pc.numDue : Pc → Bool
  | .pushLen _ _ => true
  | .pushNums _ _ => true
  | _ => false

/-- What a thread still has to enter, and for which word and index. -/
def Pc.owes (c : Call) (ns : List ℤ) (fn : ℤ) : Pc → Option (List Char × ℕ × List Act)
  | .pushLen w i => some (w, i, program c ns fn w)
  | .pushNums w i => some (w, i, program c ns fn w)
  | .countKeys w i => some (w, i, program c ns fn w)
  | .countWords w i _ => some (w, i, program c ns fn w)
  | .checkWord w i => some (w, i, program c ns fn w)
  | .checkLen w i => some (w, i, program c ns fn w)
  | .write w i acts => some (w, i, acts)
  | _ => none

/-- Where a thread can be, when no race has happened. -/
def Thread (cf : List Char → List Char) (m : WL) (c : Call) : Pc → Prop
  | .enter => True
  | .again w => (∃ w₀, c.word = .str w₀ ∧ w₀ ≠ [] ∧ m.fold cf w₀ = w ∧ Clean w) ∧
      w ∉ Dict.keys m.wordIndices
  | .fetch _ => False
  | .measure w => Adds cf m.caseInsensitive c.word w ∧ w ∉ Dict.keys m.wordIndices
  | .setIndex w i => Adds cf m.caseInsensitive c.word w ∧ w ∉ Dict.keys m.wordIndices ∧
      i = m.wordList.length
  | .pushWord w i => Adds cf m.caseInsensitive c.word w ∧ i = m.wordList.length
  | .pushLen w i => Adds cf m.caseInsensitive c.word w ∧ m.wordList[i]? = some w ∧
      i + 1 = m.wordList.length
  | .pushNums w i => Adds cf m.caseInsensitive c.word w ∧ m.wordList[i]? = some w ∧
      i + 1 = m.wordList.length
  | .countKeys w i => Adds cf m.caseInsensitive c.word w ∧ m.wordList[i]? = some w ∧
      i + 1 = m.wordList.length
  | .countWords w i _ => Adds cf m.caseInsensitive c.word w ∧ m.wordList[i]? = some w ∧
      i + 1 = m.wordList.length
  | .checkWord w i => Adds cf m.caseInsensitive c.word w ∧ m.wordList[i]? = some w
  | .checkLen w i => Adds cf m.caseInsensitive c.word w ∧ m.wordList[i]? = some w
  | .write w i _ => Adds cf m.caseInsensitive c.word w ∧ m.wordList[i]? = some w
  | .done r => r = addResult cf m.caseInsensitive c.word ∧
      ∀ x, Adds cf m.caseInsensitive c.word x → x ∈ Dict.keys m.wordIndices

/-- The thread is going to find that the list has grown too long. -/
def Late (m : WL) : Pc → Prop
  | .setIndex _ i => i < m.wordList.length
  | .pushWord _ i => i < m.wordList.length
  | .pushLen _ i => i + 1 < m.wordList.length
  | .pushNums _ i => i + 1 < m.wordList.length
  | .countKeys _ i => i + 1 < m.wordList.length
  | .countWords _ i _ => i + 1 < m.wordList.length
  | _ => False

theorem Thread.target {m : WL} {c : Call} {p : Pc} (h : Thread cf m c p) {w : List Char}
    (hw : p.word = some w) : target cf m.caseInsensitive c.word = some w := by
  have key : ∀ x, Adds cf m.caseInsensitive c.word x →
      ListConc.target cf m.caseInsensitive c.word = some x := by
    rintro x ⟨w₀, h1, _, h2, _⟩
    rw [h1]; exact congrArg some h2
  cases p with
  | enter => cases hw
  | done r => cases hw
  | fetch w => exact h.elim
  | again v =>
    injection hw with hw; subst hw
    obtain ⟨⟨w₀, h1, _, h2, _⟩, _⟩ := h
    rw [h1]; exact congrArg some h2
  | measure v => injection hw with hw; subst hw; exact key _ h.1
  | setIndex v i => injection hw with hw; subst hw; exact key _ h.1
  | pushWord v i => injection hw with hw; subst hw; exact key _ h.1
  | pushLen v i => injection hw with hw; subst hw; exact key _ h.1
  | pushNums v i => injection hw with hw; subst hw; exact key _ h.1
  | countKeys v i => injection hw with hw; subst hw; exact key _ h.1
  | countWords v i d => injection hw with hw; subst hw; exact key _ h.1
  | checkWord v i => injection hw with hw; subst hw; exact key _ h.1
  | checkLen v i => injection hw with hw; subst hw; exact key _ h.1
  | write v i acts => injection hw with hw; subst hw; exact key _ h.1

theorem active_of_word {p : Pc} {w : List Char} (h : p.word = some w) : p.active = true := by
  cases p <;> first | rfl | cases h

theorem Thread.congr {m m' : WL} (h1 : m'.caseInsensitive = m.caseInsensitive)
    (h2 : m'.wordIndices = m.wordIndices) (h3 : m'.wordList = m.wordList) {c : Call} {p : Pc}
    (h : Thread cf m c p) : Thread cf m' c p := by
  cases p <;> simp only [Thread, WL.fold, h1, h2, h3] at h ⊢ <;> exact h

/-- Another word gets an index. -/
theorem Thread.setIndex {m : WL} {c : Call} {p : Pc} (h : Thread cf m c p) {w : List Char} {i : ℕ}
    (hw : p.word ≠ some w) :
    Thread cf { m with wordIndices := Dict.set m.wordIndices w i } c p := by
  have key : ∀ v, p.word = some v → v ∉ Dict.keys m.wordIndices →
      v ∉ Dict.keys (Dict.set m.wordIndices w i) := by
    intro v hv hn hm
    rcases Dict.mem_keys_set.1 hm with rfl | hm
    · exact hw hv
    · exact hn hm
  cases p with
  | again v => exact ⟨h.1, key v rfl h.2⟩
  | measure v => exact ⟨h.1, key v rfl h.2⟩
  | setIndex v i => exact ⟨h.1, key v rfl h.2.1, h.2.2⟩
  | done r => exact ⟨h.1, fun x hx => Dict.mem_keys_set.2 (Or.inr (h.2 x hx))⟩
  | _ => exact h

/-- Another word is appended, and the thread does not come too late. -/
theorem Thread.pushWord {m : WL} {c : Call} {p : Pc} (h : Thread cf m c p) {w : List Char}
    (hl : ¬ Late { m with wordList := m.wordList ++ [w] } p) :
    Thread cf { m with wordList := m.wordList ++ [w] } c p := by
  have key : ∀ (v : List Char) (i : ℕ), m.wordList[i]? = some v → (m.wordList ++ [w])[i]? = some v := by
    intro v i hv
    rw [List.getElem?_append_left (List.getElem?_eq_some_iff.1 hv).1]; exact hv
  have hlen : (m.wordList ++ [w]).length = m.wordList.length + 1 := by simp
  cases p with
  | setIndex v i =>
    exfalso; apply hl
    have := h.2.2
    simp only [Late]; omega
  | pushWord v i =>
    exfalso; apply hl
    have := h.2
    simp only [Late]; omega
  | pushLen v i => exfalso; apply hl; have := h.2.2; simp only [Late]; omega
  | pushNums v i => exfalso; apply hl; have := h.2.2; simp only [Late]; omega
  | countKeys v i => exfalso; apply hl; have := h.2.2; simp only [Late]; omega
  | countWords v i d => exfalso; apply hl; have := h.2.2; simp only [Late]; omega
  | checkWord v i => exact ⟨h.1, key v i h.2⟩
  | checkLen v i => exact ⟨h.1, key v i h.2⟩
  | write v i acts => exact ⟨h.1, key v i h.2⟩
  | fetch v => exact h.elim
  | _ => exact h

/-- The state of a run in which no race has happened. -/
structure Inv (cf : List Char → List Char) (st : WL) (C : ℕ → Call) (s : Sys) : Prop where
  nList : s.mem.nList = st.nList
  filterN : s.mem.filterN = st.filterN
  ci : s.mem.caseInsensitive = st.caseInsensitive
  nodupN : s.mem.nList.Nodup
  posN : ∀ n ∈ s.mem.nList, 0 < n
  nodupW : s.mem.wordList.Nodup
  words : ∀ w ∈ s.mem.wordList, Clean w ∧ w ≠ [] ∧ s.mem.fold cf w = w
  keysN : (Dict.keys s.mem.wordIndices).Nodup
  index : ∀ w i, Dict.get? s.mem.wordIndices w = some i ↔
    s.mem.wordList[i]? = some w ∨ ∃ t, s.pc t = .pushWord w i
  thread : ∀ t, Thread cf s.mem (C t) (s.pc t)
  lensDue : ∀ t w i, s.pc t = .pushLen w i →
    s.mem.wordLens = s.mem.wordList.dropLast.map List.length
  lensOk : (∀ t w i, s.pc t ≠ .pushLen w i) → s.mem.wordLens = s.mem.wordList.map List.length
  numsDue : ∀ t, (s.pc t).numDue = true → s.mem.wordNumGrams =
    s.mem.wordList.dropLast.map (fun w => s.mem.nList.map (numGrams w.length))
  numsOk : (∀ t, (s.pc t).numDue = false) → s.mem.wordNumGrams =
    s.mem.wordList.map (fun w => s.mem.nList.map (numGrams w.length))
  owed : ∀ t w i acts, (s.pc t).owes (C t) s.mem.nList s.mem.filterN = some (w, i, acts) →
    Posted s.mem i w acts
  paid : ∀ i w, s.mem.wordList[i]? = some w →
    (∀ t acts, (s.pc t).owes (C t) s.mem.nList s.mem.filterN ≠ some (w, i, acts)) →
    Posted s.mem i w []
  beyond : ∀ i, s.mem.wordList.length ≤ i → Unposted s.mem i
  old : ∀ x ∈ st.wordList, x ∈ s.mem.wordList
  new : ∀ x ∈ s.mem.wordList, x ∈ st.wordList ∨
    ∃ t, s.pc t ≠ .enter ∧ Adds cf st.caseInsensitive (C t).word x

/-- Replacing where one thread is. -/
def upd (pc : ℕ → Pc) (i : ℕ) (p : Pc) : ℕ → Pc := fun j => if j = i then p else pc j

theorem upd_self (pc : ℕ → Pc) (i : ℕ) (p : Pc) : upd pc i p i = p := if_pos rfl

theorem upd_other {pc : ℕ → Pc} {i : ℕ} {p : Pc} {j : ℕ} (h : j ≠ i) : upd pc i p j = pc j := if_neg h

variable {st : WL} {C : ℕ → Call} {s : Sys}

/-- At most one thread in progress has a word. -/
theorem Inv.unique (h : Inv cf st C s) (ha : Apart cf C s) {i j : ℕ} {w : List Char}
    (hi : (s.pc i).word = some w) (hj : (s.pc j).word = some w) : i = j := by
  by_contra hne
  apply ha i j hne (active_of_word hi) (active_of_word hj)
  rw [(h.thread i).target hi, (h.thread j).target hj]

theorem owes_word {c : Call} {ns : List ℤ} {fn : ℤ} {p : Pc} {w : List Char} {i : ℕ} {acts : List Act}
    (h : p.owes c ns fn = some (w, i, acts)) : p.word = some w := by
  cases p with
  | enter => cases h
  | again w => cases h
  | fetch w => cases h
  | measure w => cases h
  | setIndex w i => cases h
  | pushWord w i => cases h
  | done r => cases h
  | _ => injection h with h; injection h with h1 h2; exact congrArg some h1

theorem Inv.owes_at (h : Inv cf st C s) {t : ℕ} {w : List Char} {i : ℕ} {acts : List Act}
    (ho : (s.pc t).owes (C t) s.mem.nList s.mem.filterN = some (w, i, acts)) :
    s.mem.wordList[i]? = some w := by
  have ht := h.thread t
  revert ho ht
  cases s.pc t with
  | enter => intro ho; cases ho
  | again w => intro ho; cases ho
  | fetch w => intro ho; cases ho
  | measure w => intro ho; cases ho
  | setIndex w i => intro ho; cases ho
  | pushWord w i => intro ho; cases ho
  | done r => intro ho; cases ho
  | pushLen w i =>
    intro ho ht; injection ho with ho; injection ho with h1 h2; injection h2 with h2 h3
    subst h1 h2; exact ht.2.1
  | pushNums w i =>
    intro ho ht; injection ho with ho; injection ho with h1 h2; injection h2 with h2 h3
    subst h1 h2; exact ht.2.1
  | countKeys w i =>
    intro ho ht; injection ho with ho; injection ho with h1 h2; injection h2 with h2 h3
    subst h1 h2; exact ht.2.1
  | countWords w i d =>
    intro ho ht; injection ho with ho; injection ho with h1 h2; injection h2 with h2 h3
    subst h1 h2; exact ht.2.1
  | checkWord w i =>
    intro ho ht; injection ho with ho; injection ho with h1 h2; injection h2 with h2 h3
    subst h1 h2; exact ht.2
  | checkLen w i =>
    intro ho ht; injection ho with ho; injection ho with h1 h2; injection h2 with h2 h3
    subst h1 h2; exact ht.2
  | write w i acts =>
    intro ho ht; injection ho with ho; injection ho with h1 h2; injection h2 with h2 h3
    subst h1 h2; exact ht.2

/-- A step that changes nothing but where the thread is. -/
theorem Inv.move (h : Inv cf st C s) {i : ℕ} {p : Pc} (hT : Thread cf s.mem (C i) p)
    (h1 : ∀ w k, p = .pushWord w k ↔ s.pc i = .pushWord w k)
    (h2 : ∀ w k, p = .pushLen w k ↔ s.pc i = .pushLen w k)
    (h3 : p.numDue = (s.pc i).numDue)
    (h4 : p.owes (C i) s.mem.nList s.mem.filterN = (s.pc i).owes (C i) s.mem.nList s.mem.filterN ∨
      (p.owes (C i) s.mem.nList s.mem.filterN = none ∧
        ∃ w k, (s.pc i).owes (C i) s.mem.nList s.mem.filterN = some (w, k, [])))
    (h5 : p ≠ .enter ∨ s.pc i = .enter) : Inv cf st C ⟨s.mem, upd s.pc i p⟩ := by
  have hsame : ∀ (P : ℕ → Pc → Prop), (P i p ↔ P i (s.pc i)) → ∀ t, P t (upd s.pc i p t) ↔ P t (s.pc t) := by
    intro P hP t
    by_cases ht : t = i
    · subst ht; rw [upd_self]; exact hP
    · rw [upd_other ht]
  refine ⟨h.nList, h.filterN, h.ci, h.nodupN, h.posN, h.nodupW, h.words, h.keysN, ?_, ?_, ?_, ?_, ?_, ?_,
    ?_, ?_, h.beyond, h.old, ?_⟩
  · intro w k
    rw [h.index]
    exact or_congr_right (exists_congr fun t =>
      (hsame (fun _ q => q = .pushWord w k) (h1 w k) t).symm)
  · intro t
    by_cases ht : t = i
    · subst ht; simp only [upd_self]; exact hT
    · simp only [upd_other ht]; exact h.thread t
  · intro t w k ht
    exact h.lensDue t w k ((hsame (fun _ q => q = .pushLen w k) (h2 w k) t).1 ht)
  · intro hn
    exact h.lensOk fun t w k ht =>
      hn t w k ((hsame (fun _ q => q = .pushLen w k) (h2 w k) t).2 ht)
  · intro t ht
    exact h.numsDue t ((hsame (fun _ q => q.numDue = true) (by rw [h3]) t).1 ht)
  · intro hn
    exact h.numsOk fun t => (hsame (fun _ q => q.numDue = false) (by rw [h3]) t).1 (hn t)
  · intro t w k acts ho
    by_cases ht : t = i
    · subst ht
      simp only [upd_self] at ho
      rcases h4 with h4 | ⟨h4, _⟩
      · rw [h4] at ho; exact h.owed t w k acts ho
      · rw [h4] at ho; cases ho
    · simp only [upd_other ht] at ho; exact h.owed t w k acts ho
  · intro k w hk hno
    rcases h4 with h4 | ⟨h4, w', k', h5⟩
    · refine h.paid k w hk fun t acts ho => hno t acts ?_
      by_cases ht : t = i
      · subst ht; simp only [upd_self]; rw [h4]; exact ho
      · simp only [upd_other ht]; exact ho
    · by_cases he : w' = w ∧ k' = k
      · rw [he.1, he.2] at h5
        exact h.owed i w k [] h5
      · refine h.paid k w hk fun t acts ho => hno t acts ?_
        by_cases ht : t = i
        · subst ht
          rw [h5] at ho
          injection ho with ho; injection ho with e1 e2; injection e2 with e2 e3
          exact absurd ⟨e1, e2⟩ he
        · simp only [upd_other ht]; exact ho
  · intro x hx
    rcases h.new x hx with hx | ⟨t, ht, ha⟩
    · exact Or.inl hx
    · refine Or.inr ⟨t, ?_, ha⟩
      by_cases e : t = i
      · subst e
        simp only [upd_self]
        rcases h5 with h5 | h5
        · exact h5
        · exact absurd h5 ht
      · simp only [upd_other e]; exact ht

end ListConc
end Verif
