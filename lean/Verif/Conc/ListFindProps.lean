import Verif.Conc.ListFind
import Verif.Conc.ListProps
import Mathlib.Data.List.ReduceOption

/-!
# `WordList` searched while other threads fill it: properties C194, C195
-/

namespace Verif
namespace ListConc

open GramSpec IndexSpec

variable {cf : List Char → List Char} {S : Type} [LinearOrder S] {agg : List ℚ → S} {Q : Query}
  {st : WL} {C : ℕ → Call}

theorem rrun_sys (sched : List (Option ℕ)) (s : RSys S) :
    (s.run cf agg C Q sched).sys = s.sys.run cf C sched.reduceOption := by
  induction sched generalizing s with
  | nil => rfl
  | cons o sched ih =>
    cases o with
    | none =>
      rw [List.reduceOption_cons_of_none]
      exact ih _
    | some i =>
      rw [List.reduceOption_cons_of_some]
      exact ih _

theorem rinv_run (hcf : ∀ w, cf (cf w) = cf w) (hfair : ∀ i, (C i).Fair) (hagg : MonotoneAgg agg)
    (hQ : ∀ l, (Q.grams l).Perm l) {m₀ F : WL} (hF : WLInv cf F) (sched : List (Option ℕ)) {s : RSys S}
    (hFe : F = (s.sys.run cf C sched.reduceOption).mem) (hinv : Inv cf st C s.sys)
    (ha : AlwaysApart cf C s.sys sched.reduceOption)
    (hidle : ∀ t, ((s.sys.run cf C sched.reduceOption).pc t).active = false)
    (hret : ∀ t e x, (s.sys.run cf C sched.reduceOption).pc t = .done (.error e) →
      ¬ Adds cf st.caseInsensitive (C t).word x)
    (h0 : Grows m₀ s.sys.mem) (h : RInv cf agg Q m₀ s.sys.mem F s.pc) :
    RInv cf agg Q m₀ F F (s.run cf agg C Q sched).pc := by
  induction sched generalizing s with
  | nil =>
    subst hFe
    exact h
  | cons o sched ih =>
    cases o with
    | none =>
      rw [List.reduceOption_cons_of_none] at hFe ha hidle hret
      refine ih (s := s.step cf agg C Q none) hFe hinv ha hidle hret h0 ?_
      exact RInv.rstep h0 (hFe ▸ run_grows _ _) (hinv.sound hfair) hF hagg hQ h
    | some i =>
      rw [List.reduceOption_cons_of_some] at hFe ha hidle hret
      have hg : Grows s.sys.mem (s.sys.step cf C i).mem := run_grows [i] s.sys
      refine ih (s := s.step cf agg C Q (some i)) hFe ?_ ?_ hidle hret (h0.trans hg) (h.mono hg)
      · exact hinv.run_prefix (l := [i]) hcf hfair ha hidle hret
      · intro l hl
        exact ha (i :: l) ((List.prefix_cons_inj i).2 hl)

/-- Everything about a stored word has been entered. -/
theorem Stored.complete {s : Sys} (h : Inv cf st C s) {w : List Char} (hw : Stored cf C s w) :
    ∃ i, Complete s.mem w i := by
  have hm : w ∈ s.mem.wordList := (List.perm_insertionSort _ _).mem_iff.1 hw.1
  obtain ⟨i, hi⟩ := List.mem_iff_getElem?.1 hm
  refine ⟨i, hi, h.paid i w hi ?_⟩
  intro t acts ho
  have h1 := owes_word ho
  exact hw.2 t (active_of_word h1) ((h.thread t).target h1)

theorem Found.perm {ns : List ℤ} {fn : ℤ} {normalize : Bool} {stored : List Char → Prop}
    {a b : List (List Char)} (hp : a.Perm b) {k : ℕ} {q : List Char} {res : List (List Char × (S ×ₗ ℚ))}
    (h : Found agg ns fn normalize stored a k q res) : Found agg ns fn normalize stored b k q res := by
  refine { h with scores := ?_, best := ?_ }
  · intro r hr
    obtain ⟨h1, h2⟩ := h.scores r hr
    exact ⟨hp.mem_iff.1 h1, h2⟩
  · intro w hw he hn
    refine le_trans (h.best w hw he hn) (le_of_eq ?_)
    unfold rivals eligibleWords
    exact ((hp.filter _).filter _).length_eq

theorem check_args {F : WL} {a b : PyVal} {q : List Char} {k : ℕ} (h : F.checkLookup cf a b = .ok (q, k)) :
    ∃ w k', a = .str w ∧ w ≠ [] ∧ b = .int k' ∧ 0 < k' ∧ q = F.fold cf w ∧ k = k'.toNat := by
  unfold WL.checkLookup at h
  cases a with
  | int i => cases h
  | other => cases h
  | str w =>
    simp only at h
    split at h
    · cases h
    rename_i hw
    cases b with
    | str s => cases h
    | other => cases h
    | int k =>
      simp only at h
      split at h
      · cases h
      rename_i hk
      split at h
      · cases h
      injection h with h
      injection h with h1 h2
      exact ⟨w, k, rfl, by simpa using hw, rfl, not_le.1 hk, h1.symm, h2.symm⟩

/-! ## C194 -/

/-- A thread calls `lookup` while others call `add_word` of the same list; steps interleaved arbitrarily, at
no time two calls for the same word, and in the end no call has raised that could have succeeded. `before`
is what happens before the lookup begins. If the lookup returns, it returns distinct words, at most `top_k`,
best first; each is a word that can be found, with at most its score; words stored when the lookup began have
their exact score, and such a word is missing only if there are `top_k` others that score at least as well.
If it raises, it does so for its arguments or some `top_k` even in the end, when nobody adds words. -/
theorem C194_lookup_while_adding (hcf : ∀ w, cf (cf w) = cf w) (hr : st.Reachable cf)
    (hfair : ∀ i, (C i).Fair) (hagg : MonotoneAgg agg) (hQ : ∀ l, (Q.grams l).Perm l)
    {before : List ℕ} {sched : List (Option ℕ)}
    (ha : AlwaysApart cf C (Sys.start st) (before ++ sched.reduceOption))
    (hidle : ∀ i, ((RSys.run cf agg C Q ⟨(Sys.start st).run cf C before, .enter⟩ sched).sys.pc i).active =
      false)
    (hret : ∀ i r, ((RSys.run cf agg C Q ⟨(Sys.start st).run cf C before, .enter⟩ sched).sys.pc i).outcome =
      some r → (st.addWord cf (C i).word).2 = .ok () → r = .ok ()) :
    (∀ res, (RSys.run cf agg C Q ⟨(Sys.start st).run cf C before, .enter⟩ sched).pc.outcome =
        some (.ok res) →
      ∃ w k, Q.word = .str w ∧ w ≠ [] ∧ Q.topK = .int k ∧ 0 < k ∧
        Found agg st.nList st.filterN Q.normalize (Stored cf C ((Sys.start st).run cf C before))
          (RSys.run cf agg C Q ⟨(Sys.start st).run cf C before, .enter⟩ sched).sys.mem.vocabulary k.toNat
          (st.fold cf w) res) ∧
    ∀ e, (RSys.run cf agg C Q ⟨(Sys.start st).run cf C before, .enter⟩ sched).pc.outcome =
        some (.error e) →
      ∃ topK, (RSys.run cf agg C Q ⟨(Sys.start st).run cf C before, .enter⟩ sched).sys.mem.lookup agg cf
        Q.word topK Q.normalize = .error e := by
  have hi := hr.inv hcf
  have hsys := rrun_sys (cf := cf) (agg := agg) (C := C) (Q := Q) sched
    ⟨(Sys.start st).run cf C before, .enter⟩
  have hsys' : (RSys.run cf agg C Q ⟨(Sys.start st).run cf C before, .enter⟩ sched).sys =
      (Sys.start st).run cf C (before ++ sched.reduceOption) := by rw [hsys, run_append]
  rw [hsys'] at hidle hret
  have hret' : ∀ t e x, ((Sys.start st).run cf C (before ++ sched.reduceOption)).pc t = .done (.error e) →
      ¬ Adds cf st.caseInsensitive (C t).word x := by
    intro t e x ht hx
    have := hret t (.error e) (by rw [ht]; rfl) ((addWord_words hcf hi _).1.2 ⟨x, hx⟩)
    cases this
  have hinv : Inv cf st C ((Sys.start st).run cf C (before ++ sched.reduceOption)) :=
    (Inv.start hi).run hcf hfair ha hidle hret'
  have hF := hinv.idle hidle
  have hinv0 : Inv cf st C ((Sys.start st).run cf C before) :=
    (Inv.start hi).run_prefix hcf hfair ha hidle hret'
  have hR := rinv_run (st := st) (agg := agg) (Q := Q) hcf hfair hagg hQ hF sched
    (s := ⟨(Sys.start st).run cf C before, .enter⟩) (m₀ := ((Sys.start st).run cf C before).mem)
    (by rw [run_append]) hinv0
    (fun l hl => by
      have := ha (before ++ l) ((List.prefix_append_right_inj before).2 hl)
      rwa [run_append] at this)
    (by rw [← run_append]; exact hidle) (by rw [← run_append]; exact hret')
    (Grows.rfl' _) trivial
  rw [hsys']
  have hfold : ∀ w, ((Sys.start st).run cf C (before ++ sched.reduceOption)).mem.fold cf w = st.fold cf w := by
    intro w; unfold WL.fold; rw [hinv.ci]
  constructor
  · intro res hres
    cases hp : (RSys.run cf agg C Q ⟨(Sys.start st).run cf C before, .enter⟩ sched).pc with
    | done r =>
      rw [hp] at hres hR
      injection hres with hres
      subst hres
      obtain ⟨q, k, hc, hfound⟩ := hR
      have hargs := check_args hc
      obtain ⟨w, k', h1, h2, h3, h4, h5, h6⟩ := hargs
      refine ⟨w, k', h1, h2, h3, h4, ?_⟩
      have := (hfound _ (fun w hw => Stored.complete hinv0 hw)).perm
        (List.perm_insertionSort (· ≤ ·) _).symm
      rw [hinv.nList, hinv.filterN, h5, h6, hfold] at this
      exact this
    | _ => rw [hp] at hres; cases hres
  · intro e hres
    cases hp : (RSys.run cf agg C Q ⟨(Sys.start st).run cf C before, .enter⟩ sched).pc with
    | done r =>
      rw [hp] at hres hR
      injection hres with hres
      subst hres
      rcases hR with hc | ⟨rfl, q, k, hc, helig, hwhy⟩
      · refine ⟨Q.topK, ?_⟩
        unfold WL.lookup
        rw [hc]; rfl
      · obtain ⟨w, k', h1, h2, h3, h4, h5, h6⟩ := check_args hc
        have hcl := (checkLookup_pos hc).2
        set F := ((Sys.start st).run cf C (before ++ sched.reduceOption)).mem with hFd
        refine ⟨.int (F.wordList.length + 1), ?_⟩
        rw [h1]
        refine (lookup_spec hF hagg h2 (by omega) rfl (by rw [← h5]; exact hcl) Q.normalize).1 ?_
        rw [← h5]
        refine ⟨helig, ?_⟩
        rcases hwhy with hwhy | ⟨hn, v, hv, hel, hz⟩
        · exact Or.inl hwhy
        · refine Or.inr ⟨hn, v, hv, hel, ?_, hz⟩
          unfold Outranked eligibleWords
          have a1 := List.length_filter_le (fun v_1 => decide (agg ((lowerVec F.nList Q.normalize q v).map
            (fun x => x * 2)) < agg (lowerVec F.nList Q.normalize q v_1)))
            (F.wordList.filter (fun w => Eligible F.nList F.filterN q w))
          have a2 := List.length_filter_le (fun w => decide (Eligible F.nList F.filterN q w)) F.wordList
          omega
    | _ => rw [hp] at hres; cases hres

/-- A lookup of three words. -/
def findQuery : Query := ⟨.str "bananas".toList, .int 3, true, List.reverse⟩

/-- "banana" is stored; "cabana" and "bandana" are added while the lookup is in progress. -/
def findSched : List (Option ℕ) :=
  List.replicate 12 (some 1) ++ (List.replicate 10 [none, some 1]).flatten ++ List.replicate 13 (some 3) ++
    (List.replicate 80 [none, some 3, none, some 1]).flatten ++ List.replicate 100 none

/-- The run of the example. -/
def findRun : RSys ℚ :=
  RSys.run id mean1 addCalls findQuery ⟨(Sys.start demo₀).run id addCalls (List.replicate 60 0), .enter⟩
    findSched

theorem findRun_done (i : ℕ) : findRun.sys.pc i = .enter ∨ findRun.sys.pc i = .done (.ok ()) := by
  have hs : findRun.sys = (Sys.start demo₀).run id addCalls
      (List.replicate 60 0 ++ findSched.reduceOption) := by
    unfold findRun; rw [rrun_sys, run_append]
  by_cases hi : i ∈ List.replicate 60 0 ++ findSched.reduceOption
  · right
    have h1 : ∀ i ∈ [0, 1, 3], findRun.sys.pc i = .done (.ok ()) := by decide +kernel
    have h2 : ∀ i ∈ List.replicate 60 0 ++ findSched.reduceOption, i ∈ [0, 1, 3] := by decide +kernel
    exact h1 i (h2 i hi)
  · left
    rw [hs]
    exact (run_enter _ _ i).2 ⟨rfl, hi⟩

theorem findRun_apart : AlwaysApart id addCalls (Sys.start demo₀)
    (List.replicate 60 0 ++ findSched.reduceOption) := by
  refine alwaysApart_of_test (T := [0, 1, 3]) (by decide +kernel) ?_
  have : ∀ n, ∀ i ∈ [0, 1, 3], ∀ j ∈ [0, 1, 3], i ≠ j → target id n (addCalls i).word ≠
      target id n (addCalls j).word := by decide +kernel
  intro n _ i hi j hj hij _ _
  exact this _ i hi j hj hij

/-- The lookup returns the stored word with its score, one of the new words with too low a score (it is
43/84 in the end), and misses the other new word. -/
example : ∃ res, Found mean1 [2, 3] 0 true (Stored id addCalls
      ((Sys.start demo₀).run id addCalls (List.replicate 60 0)))
      ["banana".toList, "bandana".toList, "cabana".toList] 3 "bananas".toList res ∧
    plain (.ok res) = .ok [("banana", 1383 / 1820, 163 / 210), ("bandana", 5 / 24, 17 / 28)] := by
  have hidle : ∀ i, (findRun.sys.pc i).active = false := by
    intro i
    rcases findRun_done i with e | e <;> rw [e] <;> rfl
  obtain ⟨h1, _⟩ := C194_lookup_while_adding (cf := id) (st := demo₀) (C := addCalls) (agg := mean1)
    (Q := findQuery) (fun _ => rfl) demo₀_reachable addCalls_fair mean1_monotone
    (fun l => List.reverse_perm l) (before := List.replicate 60 0) (sched := findSched) findRun_apart hidle
    (fun i r hr _ => outcome_ok (findRun_done i) hr)
  have hout : (findRun.pc.outcome.map plain) =
      some (.ok [("banana", 1383 / 1820, 163 / 210), ("bandana", 5 / 24, 17 / 28)]) := by decide +kernel
  cases ho : findRun.pc.outcome with
  | none => rw [ho] at hout; cases hout
  | some r =>
    rw [ho] at hout
    injection hout with hout
    cases r with
    | error e => cases hout
    | ok res =>
      refine ⟨res, ?_, hout⟩
      obtain ⟨w, k, e1, _, e2, _, hf⟩ := h1 res ho
      have f1 : w = "bananas".toList := (PyVal.str.inj e1).symm
      have f2 : k = 3 := (PyVal.int.inj e2).symm
      have hv : (RSys.run id mean1 addCalls findQuery
          ⟨(Sys.start demo₀).run id addCalls (List.replicate 60 0), .enter⟩ findSched).sys.mem.vocabulary =
          ["banana".toList, "bandana".toList, "cabana".toList] := by decide +kernel
      have e3 : demo₀.nList = [2, 3] := by decide +kernel
      have e4 : demo₀.filterN = 0 := by decide +kernel
      have e5 : demo₀.fold id "bananas".toList = "bananas".toList := by decide +kernel
      rw [hv, e3, e4, f1, f2, e5] at hf
      exact hf

/-! ## C195 -/

/-- One word is stored. -/
def missStart : WL := demo₀.run id [.add (.str "xa".toList)]

/-- A better one is added. -/
def missCalls : ℕ → Call := fun _ => ⟨.str "aaaaa".toList, id, id⟩

/-- Asking for the best word. -/
def missQuery : Query := ⟨.str "baaaaa".toList, .int 1, false, id⟩

/-- The lookup takes place between entering counts and entering positions. -/
def missSched : List (Option ℕ) :=
  List.replicate 17 (some 0) ++ List.replicate 60 none ++ List.replicate 40 (some 0)

/-- The run of C195. -/
def missRun : RSys ℚ := RSys.run id mean1 missCalls missQuery ⟨Sys.start missStart, .enter⟩ missSched

/-- A lookup that runs while another thread adds a word can return nothing at all although a word that it
finds is stored throughout: the new word crowds the stored one out when counts are compared, and is then not
found itself because its positions are not yet there. In C194 "at most `top_k`" cannot be replaced by "one at
least, if there is one". -/
theorem C195_lookup_returns_nothing :
    ¬ ∀ (st : WL) (C : ℕ → Call) (Q : Query) (before : List ℕ) (sched : List (Option ℕ)),
      st.Reachable id → (∀ i, (C i).Fair) → (∀ l, (Q.grams l).Perm l) →
      AlwaysApart id C (Sys.start st) (before ++ sched.reduceOption) →
      (∀ i, ((RSys.run id mean1 C Q ⟨(Sys.start st).run id C before, .enter⟩ sched).sys.pc i).active =
        false) →
      (∀ i r, ((RSys.run id mean1 C Q ⟨(Sys.start st).run id C before, .enter⟩ sched).sys.pc i).outcome =
        some r → r = .ok ()) →
      ∀ res, (RSys.run id mean1 C Q ⟨(Sys.start st).run id C before, .enter⟩ sched).pc.outcome =
        some (.ok res) →
      ∀ w ∈ st.vocabulary, (∃ r, st.lookup mean1 id Q.word Q.topK Q.normalize = .ok r ∧ w ∈ r.map Prod.fst) →
        res ≠ [] := by
  intro h
  have hr : missStart.Reachable id :=
    ⟨.iter [3, 2, 3], true, 0, demo₀, [.add (.str "xa".toList)], by decide +kernel, rfl⟩
  have hs : missRun.sys = (Sys.start missStart).run id missCalls ([] ++ missSched.reduceOption) := by
    unfold missRun; rw [rrun_sys]; rfl
  have hmem : ∀ i ∈ [] ++ missSched.reduceOption, i ∈ [0] := by decide +kernel
  have hd : ∀ i, missRun.sys.pc i = .enter ∨ missRun.sys.pc i = .done (.ok ()) := by
    intro i
    by_cases hi : i ∈ [] ++ missSched.reduceOption
    · right
      have h1 : ∀ i ∈ [0], missRun.sys.pc i = .done (.ok ()) := by decide +kernel
      exact h1 i (hmem i hi)
    · left
      rw [hs]
      exact (run_enter _ _ i).2 ⟨rfl, hi⟩
  have ha : AlwaysApart id missCalls (Sys.start missStart) ([] ++ missSched.reduceOption) := by
    refine alwaysApart_of_test (T := [0]) hmem ?_
    intro n _ i hi j hj hij
    rw [List.mem_singleton] at hi hj
    exact absurd (hi.trans hj.symm) hij
  have hidle : ∀ i, (missRun.sys.pc i).active = false := by
    intro i
    rcases hd i with e | e <;> rw [e] <;> rfl
  have hout : missRun.pc.outcome = some (.ok []) := by decide +kernel
  have hl : missStart.lookup mean1 id missQuery.word missQuery.topK missQuery.normalize =
      .ok [("xa".toList, toLex (1, 2))] := by decide +kernel
  have hv : "xa".toList ∈ missStart.vocabulary := by decide +kernel
  exact h missStart missCalls missQuery [] missSched hr (fun _ => ⟨fun l => .refl l, fun l => .refl l⟩)
    (fun l => .refl l) ha hidle (fun i r hr => outcome_ok (hd i) hr) [] hout _ hv ⟨_, hl, by simp⟩ rfl

/-- In the end the new word is found. -/
example : plain (missRun.sys.mem.lookup mean1 id missQuery.word missQuery.topK missQuery.normalize) =
    .ok [("aaaaa", 521 / 60, 29 / 3)] := by decide +kernel

end ListConc
end Verif
