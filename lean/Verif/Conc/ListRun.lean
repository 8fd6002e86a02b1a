import Verif.Conc.ListSystem
import Verif.Index.Props

/-!
# Threads that call `add_word`: whole runs
-/

namespace Verif
namespace ListConc

open GramSpec IndexSpec

variable {cf : List Char → List Char} {st : WL} {C : ℕ → Call} {s : Sys}

/-- The thread has raised or is going to. -/
def Bad (s : Sys) (t : ℕ) : Prop := Late s.mem (s.pc t) ∨ ∃ e, s.pc t = .done (.error e)

theorem step_length (c : Call) (m : WL) (p : Pc) :
    m.wordList.length ≤ (ListConc.step cf c m p).1.wordList.length := by
  cases p with
  | enter =>
    simp only [ListConc.step]
    repeat' split
    all_goals exact le_refl _
  | again w =>
    simp only [ListConc.step]
    repeat' split
    all_goals exact le_refl _
  | fetch w =>
    simp only [ListConc.step]
    repeat' split
    all_goals exact le_refl _
  | pushWord w k => simp [ListConc.step]
  | countWords w k d =>
    simp only [ListConc.step]
    repeat' split
    all_goals exact le_refl _
  | checkWord w k =>
    simp only [ListConc.step]
    repeat' split
    all_goals exact le_refl _
  | checkLen w k =>
    simp only [ListConc.step]
    repeat' split
    all_goals exact le_refl _
  | write w k acts =>
    cases acts with
    | nil => exact le_refl _
    | cons a acts => exact le_of_eq (congrArg List.length (Act.run_words k m a).2.2.2.2.1.symm)
  | _ => exact le_refl _

theorem Late.mono {m m' : WL} (h : m.wordList.length ≤ m'.wordList.length) {p : Pc} (hl : Late m p) :
    Late m' p := by
  cases p <;> simp only [Late] at hl ⊢ <;> omega

theorem Bad.step {t : ℕ} (h : Bad s t) (i : ℕ) : Bad (s.step cf C i) t := by
  have hs : s.step cf C i = ⟨(ListConc.step cf (C i) s.mem (s.pc i)).1,
    upd s.pc i (ListConc.step cf (C i) s.mem (s.pc i)).2⟩ := rfl
  rw [hs]
  by_cases e : t = i
  · subst e
    unfold Bad at h ⊢
    simp only [upd_self]
    revert h
    cases s.pc t with
    | setIndex w k =>
      rintro (h | ⟨e, h⟩)
      · exact Or.inl h
      · cases h
    | pushWord w k =>
      rintro (h | ⟨e, h⟩)
      · left
        simp only [ListConc.step, Late, List.length_append, List.length_cons, List.length_nil] at h ⊢
        omega
      · cases h
    | pushLen w k =>
      rintro (h | ⟨e, h⟩)
      · exact Or.inl h
      · cases h
    | pushNums w k =>
      rintro (h | ⟨e, h⟩)
      · exact Or.inl h
      · cases h
    | countKeys w k =>
      rintro (h | ⟨e, h⟩)
      · exact Or.inl h
      · cases h
    | countWords w k d =>
      rintro (h | ⟨e, h⟩)
      · right
        refine ⟨.assertionError, ?_⟩
        simp only [ListConc.step, Late] at h ⊢
        rw [if_neg]
        rintro ⟨_, h2⟩
        omega
      · cases h
    | done r =>
      rintro (h | ⟨e, h⟩)
      · exact h.elim
      · exact Or.inr ⟨e, h⟩
    | _ =>
      rintro (h | ⟨e, h⟩)
      · exact h.elim
      · cases h
  · unfold Bad
    simp only [upd_other e]
    rcases h with h | h
    · exact Or.inl (h.mono (step_length _ _ _))
    · exact Or.inr h

theorem Bad.run {t : ℕ} (h : Bad s t) (l : List ℕ) : Bad (s.run cf C l) t := by
  induction l generalizing s with
  | nil => exact h
  | cons i l ih => exact ih (h.step i)

/-- A thread that is late after a step has a valid word. -/
theorem Inv.late_adds (h : Inv cf st C s) {i t : ℕ}
    (hl : Late (s.step cf C i).mem ((s.step cf C i).pc t)) :
    ∃ x, Adds cf st.caseInsensitive (C t).word x := by
  have hs : s.step cf C i = ⟨(ListConc.step cf (C i) s.mem (s.pc i)).1,
    upd s.pc i (ListConc.step cf (C i) s.mem (s.pc i)).2⟩ := rfl
  rw [hs] at hl
  have ht := h.thread t
  rw [← h.ci]
  by_cases e : t = i
  · subst e
    simp only [upd_self] at hl
    revert ht hl
    cases s.pc t with
    | enter =>
      intro ht hl; exfalso; revert hl; simp only [ListConc.step]
      repeat' split
      all_goals exact id
    | again w =>
      intro ht hl; exfalso; revert hl; simp only [ListConc.step]
      repeat' split
      all_goals exact id
    | fetch w => intro ht hl; exact ht.elim
    | measure w => intro ht hl; exact ⟨w, ht.1⟩
    | setIndex w k => intro ht hl; exact ⟨w, ht.1⟩
    | pushWord w k => intro ht hl; exact ⟨w, ht.1⟩
    | pushLen w k => intro ht hl; exact ⟨w, ht.1⟩
    | pushNums w k => intro ht hl; exact ⟨w, ht.1⟩
    | countKeys w k => intro ht hl; exact ⟨w, ht.1⟩
    | countWords w k d => intro ht hl; exact ⟨w, ht.1⟩
    | checkWord w k => intro ht hl; exact ⟨w, ht.1⟩
    | checkLen w k => intro ht hl; exact ⟨w, ht.1⟩
    | write w k acts => intro ht hl; exact ⟨w, ht.1⟩
    | done r => intro ht hl; exact hl.elim
  · simp only [upd_other e] at hl
    revert ht hl
    cases s.pc t with
    | setIndex w k => intro ht hl; exact ⟨w, ht.1⟩
    | pushWord w k => intro ht hl; exact ⟨w, ht.1⟩
    | pushLen w k => intro ht hl; exact ⟨w, ht.1⟩
    | pushNums w k => intro ht hl; exact ⟨w, ht.1⟩
    | countKeys w k => intro ht hl; exact ⟨w, ht.1⟩
    | countWords w k d => intro ht hl; exact ⟨w, ht.1⟩
    | _ => intro ht hl; exact hl.elim

/-- A run after which no call is in progress and in which no call with a valid word raised. -/
theorem Inv.run (hcf : ∀ w, cf (cf w) = cf w) (hfair : ∀ i, (C i).Fair) {l : List ℕ}
    (h : Inv cf st C s) (ha : AlwaysApart cf C s l)
    (hidle : ∀ t, ((s.run cf C l).pc t).active = false)
    (hret : ∀ t e x, (s.run cf C l).pc t = .done (.error e) →
      ¬ Adds cf st.caseInsensitive (C t).word x) : Inv cf st C (s.run cf C l) := by
  induction l generalizing s with
  | nil => exact h
  | cons i l ih =>
    have hbad : ∀ t, Bad (s.step cf C i) t → ∃ e, (s.run cf C (i :: l)).pc t = .done (.error e) := by
      intro t hb
      rcases hb.run (cf := cf) (C := C) l with hb | hb
      · exfalso
        have := hidle t
        change (((s.step cf C i).run cf C l).pc t).active = false at this
        revert hb this
        cases ((s.step cf C i).run cf C l).pc t with
        | enter => intro hb _; exact hb
        | done r => intro hb _; exact hb
        | _ => intro _ hc; cases hc
      · exact hb
    refine ih (s := s.step cf C i) (h.step hcf hfair (ha [] (List.nil_prefix)) i ?_ ?_) ?_ hidle hret
    · intro t hl
      obtain ⟨x, hx⟩ := h.late_adds hl
      obtain ⟨e, he⟩ := hbad t (Or.inl hl)
      exact hret t e x he hx
    · intro t e x he hx
      obtain ⟨e', he'⟩ := hbad t (Or.inr ⟨e, he⟩)
      exact hret t e' x he' hx
    · intro l' hl'
      exact ha (i :: l') ((List.prefix_cons_inj i).2 hl')

theorem filter_posEntries (ns : List ℤ) (ws : List (List Char)) (g : List Char) (i : ℕ) :
    (posEntries ns ws g).filter (fun e => e.1 = i) =
      match ws[i]? with
      | some w => (posEntry ns g w i).toList
      | none => [] := by
  have key : ∀ (w : List Char) (j : ℕ), (posEntry ns g w j).toList.filter (fun e => e.1 = i) =
      if j = i then (posEntry ns g w j).toList else [] := by
    intro w j
    unfold posEntry
    split <;> by_cases e : j = i <;> simp [e]
  induction ws using List.reverseRecOn with
  | nil => rfl
  | append_singleton ws w ih =>
    rw [posEntries_append, List.filter_append, ih, key]
    rcases Nat.lt_trichotomy i ws.length with h | h | h
    · rw [List.getElem?_append_left h, if_neg (by omega)]; simp
    · subst h; simp
    · rw [List.getElem?_eq_none (i := i) (l := ws) (by omega), List.getElem?_eq_none (i := i) (l := ws ++ [w])
        (by rw [List.length_append]; simp; omega), if_neg (by omega)]
      rfl

theorem perm_of_filters {α : Type} [DecidableEq α] {l l' : List (ℕ × α)}
    (h : ∀ i, (l.filter (fun e => e.1 = i)).Perm (l'.filter (fun e => e.1 = i))) : l.Perm l' := by
  rw [List.perm_iff_count]
  intro a
  have := (h a.1).count_eq a
  rwa [List.count_filter (by simp), List.count_filter (by simp)] at this

/-- When no call is in progress, the attributes agree with the list of words. -/
theorem Inv.idle (h : Inv cf st C s) (hidle : ∀ t, (s.pc t).active = false) : WLInv cf s.mem := by
  have hno : ∀ t p, s.pc t = p → p.active = true → False := by
    intro t p hp hc
    rw [← hp, hidle t] at hc
    cases hc
  have howes : ∀ t x, (s.pc t).owes (C t) s.mem.nList s.mem.filterN ≠ some x := by
    rintro t ⟨w, i, acts⟩ ho
    have := active_of_word (owes_word ho)
    rw [hidle t] at this
    cases this
  refine ⟨h.nodupN, h.posN, h.nodupW, ?_, ?_, ?_, ?_, ?_, ?_, h.words⟩
  · refine (List.perm_ext_iff_of_nodup (List.Nodup.of_map Prod.fst h.keysN)
      (List.Nodup.of_map Prod.fst (by
        rw [show s.mem.wordList.zipIdx.map Prod.fst = s.mem.wordList from keys_zipIdx _]
        exact h.nodupW))).2 ?_
    rintro ⟨w, i⟩
    rw [Dict.mem_iff_get? h.keysN, h.index, List.mem_zipIdx_iff_getElem?]
    constructor
    · rintro (h1 | ⟨t, h1⟩)
      · exact h1
      · exact (hno t _ h1 rfl).elim
    · exact Or.inl
  · exact h.lensOk fun t w i ht => hno t _ ht rfl
  · refine h.numsOk fun t => ?_
    cases hd : (s.pc t).numDue with
    | false => rfl
    | true =>
      exfalso
      have := hidle t
      revert hd this
      cases s.pc t <;> intro h1 h2 <;> first | (cases h1; done) | cases h2
  · intro g i
    cases hi : s.mem.wordList[i]? with
    | none =>
      have := (h.beyond i (List.getElem?_eq_none_iff.1 hi) g).2.2
      simp [this]
    | some w =>
      have := (h.paid i w hi (fun t acts => howes t _) g).2.2
      simp only [List.not_mem_nil, or_false] at this
      rw [this]
      simp
  · intro g
    refine perm_of_filters fun i => ?_
    rw [List.filter_map]
    change List.Perm _ (List.map _ (((posEntries s.mem.nList s.mem.wordList g)).filter
      (fun e => e.1 = i)))
    rw [filter_posEntries]
    cases hi : s.mem.wordList[i]? with
    | none =>
      rw [(h.beyond i (List.getElem?_eq_none_iff.1 hi) g).1]; exact .refl _
    | some w =>
      have := (h.paid i w hi (fun t acts => howes t _) g).1
      simpa using this
  · intro g
    refine perm_of_filters fun i => ?_
    rw [filter_posEntries]
    cases hi : s.mem.wordList[i]? with
    | none =>
      rw [(h.beyond i (List.getElem?_eq_none_iff.1 hi) g).2.1]
    | some w =>
      have := (h.paid i w hi (fun t acts => howes t _) g).2.1
      simpa using this

/-- Before any call has begun. -/
theorem Inv.start (hi : WLInv cf st) : Inv cf st C (Sys.start st) := by
  refine ⟨rfl, rfl, rfl, hi.nodupN, hi.posN, hi.nodupW, hi.words, ?_, ?_, ?_, ?_, ?_, ?_, ?_, ?_, ?_, ?_,
    fun x hx => hx, fun x hx => Or.inl hx⟩
  · exact hi.keys.nodup_iff.2 hi.nodupW
  · intro w i
    have hk : (Dict.keys st.wordIndices).Nodup := hi.keys.nodup_iff.2 hi.nodupW
    change Dict.get? st.wordIndices w = some i ↔ st.wordList[i]? = some w ∨ _
    rw [← Dict.mem_iff_get? hk, hi.indices.mem_iff, List.mem_zipIdx_iff_getElem?]
    constructor
    · exact Or.inl
    · rintro (h | ⟨t, h⟩)
      · exact h
      · cases h
  · intro t; trivial
  · intro t w i h; cases h
  · intro _; exact hi.lens
  · intro t h; cases h
  · intro _; exact hi.nums
  · intro t w i acts h; cases h
  · intro i w hw _ g
    change st.wordList[i]? = some w at hw
    refine ⟨?_, ?_, ?_⟩
    · have := (hi.counts g).filter (fun e => e.1 = i)
      rw [List.filter_map] at this
      change List.Perm _ (List.map _ (((posEntries st.nList st.wordList g)).filter
        (fun e => e.1 = i))) at this
      rw [filter_posEntries, hw] at this
      simpa [Sys.start] using this
    · have := (hi.positions g).filter (fun e => e.1 = i)
      rw [filter_posEntries, hw] at this
      simpa [Sys.start] using this
    · have := hi.filt g i
      simp only [Sys.start, List.not_mem_nil, or_false] at hw ⊢
      rw [this, hw]
      simp
  · intro i hle g
    have hw : st.wordList[i]? = none := List.getElem?_eq_none hle
    refine ⟨?_, ?_, ?_⟩
    · have := (hi.counts g).filter (fun e => e.1 = i)
      rw [List.filter_map] at this
      change List.Perm _ (List.map _ (((posEntries st.nList st.wordList g)).filter
        (fun e => e.1 = i))) at this
      rw [filter_posEntries, hw] at this
      exact List.Perm.eq_nil this
    · have := (hi.positions g).filter (fun e => e.1 = i)
      rw [filter_posEntries, hw] at this
      exact List.Perm.eq_nil this
    · have := hi.filt g i
      simp only [Sys.start]
      rw [this, hw]
      simp

/-- A call that has made no step. -/
theorem step_enter (c : Call) (m : WL) (p : Pc) : (ListConc.step cf c m p).2 ≠ .enter := by
  cases p with
  | write w k acts => cases acts <;> (simp only [ListConc.step]; intro h; cases h)
  | _ =>
    simp only [ListConc.step]
    repeat' split
    all_goals (intro h; cases h)

theorem run_enter (l : List ℕ) (s : Sys) (t : ℕ) :
    (s.run cf C l).pc t = .enter ↔ s.pc t = .enter ∧ t ∉ l := by
  induction l generalizing s with
  | nil => simp [Sys.run]
  | cons i l ih =>
    change ((s.step cf C i).run cf C l).pc t = .enter ↔ _
    rw [ih]
    have hs : s.step cf C i = ⟨(ListConc.step cf (C i) s.mem (s.pc i)).1,
      upd s.pc i (ListConc.step cf (C i) s.mem (s.pc i)).2⟩ := rfl
    rw [hs]
    by_cases e : t = i
    · subst e
      simp only [upd_self, List.mem_cons, true_or, not_true_eq_false, and_false, iff_false, not_and]
      intro h; exact absurd h (step_enter _ _ _)
    · simp [upd_other e, e]

/-- The words after adding some. -/
theorem mem_run_adds (hcf : ∀ w, cf (cf w) = cf w) {st : WL} (hi : WLInv cf st) (vs : List PyVal)
    (x : List Char) : x ∈ (st.run cf (vs.map .add)).wordList ↔
      x ∈ st.wordList ∨ ∃ v ∈ vs, Adds cf st.caseInsensitive v x := by
  induction vs generalizing st with
  | nil => simp [WL.run]
  | cons v vs ih =>
    change x ∈ (((st.addWord cf v).1).run cf (vs.map .add)).wordList ↔ _
    rw [ih (hi.addWord hcf v), (config_addWord hcf hi v).2.2]
    obtain ⟨_, h2, h3⟩ := addWord_words hcf hi v
    have : x ∈ (st.addWord cf v).1.wordList ↔ x ∈ st.wordList ∨ Adds cf st.caseInsensitive v x := by
      by_cases hv : ∃ y, Adds cf st.caseInsensitive v y
      · obtain ⟨y, hy⟩ := hv
        have huniq : ∀ z, Adds cf st.caseInsensitive v z ↔ z = y := by
          intro z
          constructor
          · rintro ⟨w, h1, _, h2, _⟩
            obtain ⟨w', h3, _, h4, _⟩ := hy
            rw [h1] at h3; injection h3 with h3
            rw [← h2, ← h4, h3]
          · rintro rfl; exact hy
        rw [h2 y hy, huniq]
        split
        · rename_i hm
          constructor
          · exact Or.inl
          · rintro (h | rfl)
            · exact h
            · exact hm
        · simp
      · rw [h3 (fun y hy => hv ⟨y, hy⟩)]
        constructor
        · exact Or.inl
        · rintro (h | h)
          · exact h
          · exact absurd ⟨x, h⟩ hv
    rw [this]
    simp only [List.mem_cons, exists_eq_or_imp, or_assoc]

theorem vocabulary_perm {a b : WL} (h : a.wordList.Perm b.wordList) : a.vocabulary = b.vocabulary := by
  unfold WL.vocabulary
  exact List.Perm.eq_of_pairwise (le := (· ≤ ·)) (fun _ _ _ _ h1 h2 => le_antisymm h1 h2)
    (List.pairwise_insertionSort _ _) (List.pairwise_insertionSort _ _)
    ((List.perm_insertionSort _ _).trans (h.trans (List.perm_insertionSort _ _).symm))

/-- The same further calls keep equal vocabularies equal. -/
theorem perm_run (hcf : ∀ w, cf (cf w) = cf w) {a b : WL} (ha : WLInv cf a) (hb : WLInv cf b)
    (hci : a.caseInsensitive = b.caseInsensitive) (h : a.wordList.Perm b.wordList)
    (ops : List WLOp) : (a.run cf ops).wordList.Perm (b.run cf ops).wordList := by
  induction ops generalizing a b with
  | nil => exact h
  | cons op ops ih =>
    cases op with
    | lookup _ _ _ => exact ih ha hb hci h
    | add v =>
      refine ih (ha.addWord hcf v) (hb.addWord hcf v) ?_ ?_
      · exact (config_addWord hcf ha v).2.2.trans (hci.trans (config_addWord hcf hb v).2.2.symm)
      · refine (List.perm_ext_iff_of_nodup (ha.addWord hcf v).nodupW (hb.addWord hcf v).nodupW).2 ?_
        intro x
        have h1 := mem_run_adds hcf ha [v] x
        have h2 := mem_run_adds hcf hb [v] x
        rw [← hci, ← h.mem_iff, ← h1] at h2
        exact h2.symm

variable {S : Type} [LinearOrder S]

omit [LinearOrder S] in
theorem sameScores_error (e : PyErr) :
    SameScores (.error e : Except PyErr (List (List Char × (S ×ₗ ℚ)))) (.error e) :=
  ⟨fun _ => Iff.rfl, fun l l' h => by cases h⟩

omit [LinearOrder S] in
theorem sameScores_ok {l l' : List (List Char × (S ×ₗ ℚ))}
    (h : l.map (fun r => (ofLex r.2).1) = l'.map (fun r => (ofLex r.2).1)) :
    SameScores (.ok l) (.ok l') := by
  refine ⟨fun e => ⟨fun h => (by cases h), fun h => (by cases h)⟩, ?_⟩
  intro l₁ l₂ h1 h2
  injection h1 with h1
  injection h2 with h2
  subst h1 h2
  exact h

/-- Lookups of two states that agree with their words, when the configuration and the words agree. -/
theorem sameScores {a b : WL} (ha : WLInv cf a) (hb : WLInv cf b)
    (hn : a.nList = b.nList) (hfn : a.filterN = b.filterN) (hci : a.caseInsensitive = b.caseInsensitive)
    (hp : a.wordList.Perm b.wordList) {agg : List ℚ → S} (hagg : MonotoneAgg agg)
    (word topK : PyVal) (normalize : Bool) :
    SameScores (a.lookup agg cf word topK normalize) (b.lookup agg cf word topK normalize) := by
  obtain ⟨a1, a2, a3, a4, a5⟩ := C44_lookup_validation (cf := cf) agg a normalize
  obtain ⟨b1, b2, b3, b4, b5⟩ := C44_lookup_validation (cf := cf) agg b normalize
  have hf : ∀ w, b.fold cf w = a.fold cf w := by intro w; unfold WL.fold; rw [hci]
  by_cases hs : ∀ s, word ≠ .str s
  · rw [a1 _ _ hs, b1 _ _ hs]; exact sameScores_error _
  push Not at hs
  obtain ⟨w, rfl⟩ := hs
  by_cases hw : w = []
  · subst hw; rw [a2, b2]; exact sameScores_error _
  by_cases hi : ∀ i, topK ≠ .int i
  · rw [a3 _ _ hw hi, b3 _ _ hw hi]; exact sameScores_error _
  push Not at hi
  obtain ⟨k, rfl⟩ := hi
  by_cases hk : k ≤ 0
  · rw [a4 _ _ hw hk, b4 _ _ hw hk]; exact sameScores_error _
  push Not at hk
  by_cases hq : Clean (a.fold cf w)
  · obtain ⟨c1, c2⟩ := lookup_spec ha hagg hw hk rfl hq normalize
    obtain ⟨d1, d2⟩ := lookup_spec hb hagg hw hk (hf w) hq normalize
    rw [← hn, ← hfn] at d1 d2
    by_cases hl : LookupFails agg a.nList a.filterN normalize a.wordList k.toNat (a.fold cf w)
    · rw [c1 hl, d1 (lookupFails_perm hp hl)]; exact sameScores_error _
    · obtain ⟨r, e1, h1⟩ := c2 hl
      obtain ⟨r', e2, h2⟩ := d2 (fun h => hl (lookupFails_perm hp.symm h))
      rw [e1, e2]
      have t1 := h1.top ha.nodupW
      have t2 := h2.top hb.nodupW
      have he : (eligibleWords a.nList a.filterN (a.fold cf w) b.wordList).Perm
          (eligibleWords a.nList a.filterN (a.fold cf w) a.wordList) := hp.symm.filter _
      obtain ⟨rest, q1, q2, q3, q4⟩ := t2
      refine sameScores_ok (topScores_unique t1 ⟨rest, q1.trans (he.map _), ?_, q3, q4⟩)
      rw [q2, List.length_map, List.length_map, he.length_eq]
  · rw [a5 _ _ hw hk hq, b5 _ _ hw hk (by rw [hf]; exact hq)]; exact sameScores_error _

end ListConc
end Verif
