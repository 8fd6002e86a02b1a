import Verif.Conc.WriteFind
import Verif.Conc.WriteProps

/-!
# `find_similar` while other threads add and discard words: property C187
-/

namespace Verif
namespace Conc

open GramSpec WordSetSpec

variable {cf : List Char → List Char} {un : Normalizer}

theorem mem_ranked_all {ns : List ℕ} {nq : List Char} {s : List Member} {k : ℕ} (hk : s.length ≤ k)
    {m : Member} : m ∈ ranked ns nq s k ↔ m ∈ s ∧ Candidate ns nq m.key := by
  unfold ranked
  rw [List.take_of_length_le, (List.perm_insertionSort _ _).mem_iff, List.mem_filter,
    decide_eq_true_eq]
  rw [List.length_insertionSort]
  exact (List.length_filter_le _ _).trans hk

theorem mem_of_mem_ranked {ns : List ℕ} {nq : List Char} {s : List Member} {k : ℕ} {m : Member}
    (h : m ∈ ranked ns nq s k) : m ∈ s ∧ Candidate ns nq m.key := by
  unfold ranked at h
  have := List.mem_of_mem_take h
  rwa [(List.perm_insertionSort _ _).mem_iff, List.mem_filter, decide_eq_true_eq] at this

/-- A call alone. -/
theorem Rep.findsAlone {st : WS} {s : List Member} (h : Rep cf un st s) {q k : PyVal} {ms : MinSim}
    {nq : List Char} (hb : Base cf un st q k ms nq) {m : Member} (hm : m ∈ s)
    (hc : Candidate (sizesOf st) nq m.key) :
    Finds cf un st q ms (m.orig, score (sizesOf st) nq m.key) := by
  have hb' : Base cf un st q (.int (s.length + 1 : ℕ)) ms nq := by
    obtain ⟨qs, kk, h1, h2, h3, h4⟩ := hb
    exact ⟨qs, _, h1, rfl, by omega, h4⟩
  refine ⟨_, _, (h.findSimilar _ _ _).trans (absFind_base hb' rfl s), ?_⟩
  exact List.mem_map.2 ⟨m, (mem_ranked_all (by simp)).2 ⟨hm, hc⟩, rfl⟩

theorem Rep.of_finds {st : WS} {s : List Member} (h : Rep cf un st s) {q : PyVal} {ms : MinSim}
    {p : List Char × ℚ} (hf : Finds cf un st q ms p) :
    ∃ nq k, Base cf un st q (.int k) ms nq ∧ ∃ m ∈ s, Candidate (sizesOf st) nq m.key ∧
      p = (m.orig, score (sizesOf st) nq m.key) := by
  obtain ⟨k, l, h1, h2⟩ := hf
  rw [h.findSimilar] at h1
  unfold absFind at h1
  cases q with
  | int i => cases h1
  | other => cases h1
  | str qs =>
    simp only at h1
    split at h1
    · cases h1
    rename_i hk
    split at h1
    · injection h1 with h1; subst h1; cases h2
    rename_i hq
    split at h1
    · cases h1
    rename_i nq hnq
    split at h1
    · injection h1 with h1; subst h1; cases h2
    rename_i hn
    injection h1 with h1
    subst h1
    obtain ⟨m, hm, rfl⟩ := List.mem_map.1 h2
    rw [not_or] at hk hq
    obtain ⟨h3, h4⟩ := mem_of_mem_ranked hm
    exact ⟨nq, k, ⟨qs, k, rfl, rfl, not_le.1 hk.1, (accepted_iff ms).2 hk.2, hq.1, hnq, hn⟩, m, h3, h4, rfl⟩

/-- `find_similar` on a set with a filter while other threads add and discard words, one at a time.
It raises `KeyError`, or what it would raise at some moment of the call, or it returns a list: at most as
many words as asked for, the best first, none twice, each with the score with which it is found alone at
some moment of the call; and what is found at every moment is missing only if the list is full of words that
are as good. -/
theorem C187_find_while_writing {st : WS} (h : WSReachable cf un st) {C : ℕ → Call}
    (hfair : ∀ i, (C i).Fair) (hfilt : filterSize st.sizes ≠ none) {before during : List ℕ}
    (hex : ExclusiveW cf un C (Sys.start C st) (before ++ during)) {i : ℕ}
    {ord : List (List Char) → List (List Char)} {q k : PyVal} {ms : MinSim}
    (hC : C i = .find ord q k ms) (hi : i ∉ before) {r : Except Err (List (List Char × ℚ))}
    (hr : ((Sys.start C st).run cf un C (before ++ during)).pc i = .find (.done r)) :
    r = .error (.py .keyError) ∨
    (∃ a e, Moment cf un C (Sys.start C st) before during a ∧ r = .error (.py e) ∧
      (st.run cf un (a.map fun j => (C j).op)).findSimilar cf un q k ms = .error e) ∨
    ∃ (l : List (List Char × ℚ)) (n : ℤ), r = .ok l ∧ k = .int n ∧ l.length ≤ n.toNat ∧
      l.Pairwise (fun x y => y.2 ≤ x.2) ∧ (l.map (fun x => x.1)).Nodup ∧
      (∀ x ∈ l, ∃ a, Moment cf un C (Sys.start C st) before during a ∧
        Finds cf un (st.run cf un (a.map fun j => (C j).op)) q ms x) ∧
      ∀ x, (∀ a, Moment cf un C (Sys.start C st) before during a →
          Finds cf un (st.run cf un (a.map fun j => (C j).op)) q ms x) →
        x ∈ l ∨ (l.length = n.toNat ∧ ∀ y ∈ l, x.2 ≤ y.2) := by
  obtain ⟨Es, hEs, hEm⟩ := h.rep
  rw [exclusiveW_append] at hex
  have hrun : (Sys.start C st).run cf un C (before ++ during) =
      ((Sys.start C st).run cf un C before).run cf un C during := by
    unfold Sys.run; rw [List.foldl_append]
  rw [hrun] at hr
  obtain ⟨E, H, g⟩ := (WInv.start (C := C) hEs).run hfair hex.1
  rw [List.nil_append] at g
  have hrep : Rep cf un st (mems Es) := ⟨Es, hEs, rfl⟩
  -- the thread has not begun
  have hpc : ((Sys.start C st).run cf un C before).pc i = .find .enter := by
    have : ∀ (l : List ℕ) (s : Sys), i ∉ l → (s.run cf un C l).pc i = s.pc i := by
      intro l
      induction l with
      | nil => intro s _; rfl
      | cons j l ih =>
        intro s hl
        rw [List.mem_cons, not_or] at hl
        show ((s.step cf un C j).run cf un C l).pc i = _
        rw [ih _ hl.2, Sys.step_pc_other hl.1]
    rw [this before _ hi]
    show (C i).pc = _
    rw [hC]; rfl
  cases hf : st.filterN with
  | none => exact absurd (hEs.good.filterSize_none hf) hfilt
  | some f =>
  have hrun' : ∀ a : List ℕ, Rep cf un (st.run cf un (a.map fun j => (C j).op))
      (membersAfter cf un st C (mems Es) a) ∧ SameConfig st (st.run cf un (a.map fun j => (C j).op)) :=
    fun a => hrep.run _
  have hbase : ∀ (a : List ℕ) k nq, Base cf un (st.run cf un (a.map fun j => (C j).op)) q k ms nq ↔
      Base cf un st q k ms nq := by
    intro a k nq
    unfold Base
    rw [(hrun' a).2.key]
  have hsizes : ∀ a : List ℕ, sizesOf (st.run cf un (a.map fun j => (C j).op)) = sizesOf st := by
    intro a
    show List.map Int.toNat _ = _
    rw [(hrun' a).2.2.1]
  -- the calls that have returned
  obtain ⟨J, hJ⟩ : ∃ J : List ℕ, J = (wstarts cf un C (Sys.start C st) before).filter fun j =>
    (((Sys.start C st).run cf un C before).pc j).outcome.isSome := ⟨_, rfl⟩
  have hJm : ∀ j, j ∈ J ↔ j ∈ wstarts cf un C (Sys.start C st) before ∧
      (((Sys.start C st).run cf un C before).pc j).outcome.isSome = true := by
    intro j; rw [hJ, List.mem_filter]
  have hLt := (wstarts_append (cf := cf) (un := un) (C := C) (Sys.start C st) before during).symm
  have hmom : ∀ a, Moment cf un C (Sys.start C st) before during a ↔
      a <+: wstarts cf un C (Sys.start C st) (before ++ during) ∧ ∀ j ∈ J, j ∈ a := by
    intro a
    unfold Moment
    refine and_congr_right fun _ => ⟨fun h j hj => ?_, fun h j hj hr => h j ((hJm j).2 ⟨hj, hr⟩)⟩
    exact h j ((hJm j).1 hj).1 ((hJm j).1 hj).2
  classical
  obtain ⟨E1, hE1⟩ : ∃ E1 : List Entry, E1 = E.filter fun e =>
    Complete st ((Sys.start C st).run cf un C before).mem e ∧
      ∀ a, a <+: wstarts cf un C (Sys.start C st) (before ++ during) → (∀ j ∈ J, j ∈ a) →
        e.m ∈ membersAfter cf un st C (mems Es) a := ⟨_, rfl⟩
  have hE1m : ∀ e ∈ E1, e ∈ E ∧ Complete st ((Sys.start C st).run cf un C before).mem e ∧
      ∀ a, a <+: wstarts cf un C (Sys.start C st) (before ++ during) → (∀ j ∈ J, j ∈ a) →
        e.m ∈ membersAfter cf un st C (mems Es) a := by
    intro e he
    rw [hE1, List.mem_filter, decide_eq_true_eq] at he
    exact he
  obtain ⟨p', H', g3, g4⟩ := g.run_find hfair hex.2 hC hf (fun j hj => (hJm j).1 hj) hLt
    (fun e he => ⟨(hE1m e he).1, (hE1m e he).2.1⟩) (fun e he => (hE1m e he).2.2) hpc
    (show DInv cf un st q k ms f H _ _ E1 _ .enter from trivial)
  rw [hr] at g3
  injection g3 with g3
  subst g3
  rcases g4 with g4 | ⟨e, x, ⟨a, a1, a2, rfl⟩, g5, g6⟩ | ⟨l, g5, g6⟩
  · exact Or.inl g4
  · refine Or.inr (Or.inl ⟨a, e, (hmom a).2 ⟨a1, a2⟩, g6, ?_⟩)
    rw [(hrun' a).1.findSimilar, (hrun' a).2.key]
    rw [show (st.run cf un (a.map fun j => (C j).op)).nList.map Int.toNat = sizesOf st from hsizes a]
    exact g5
  · obtain ⟨n, hn, hlen, hall⟩ := g6.size
    refine Or.inr (Or.inr ⟨l, n, g5, hn, hlen, g6.desc, g6.once, ?_, ?_⟩)
    · intro x hx
      obtain ⟨nq, hb, e, ⟨a, a1, a2, a3⟩, hcand, rfl⟩ := g6.right x hx
      refine ⟨a, (hmom a).2 ⟨a1, a2⟩, ?_⟩
      have := Rep.findsAlone (hrun' a).1 ((hbase a _ _).2 hb) a3 (by rw [hsizes]; exact hcand)
      rwa [hsizes] at this
    · intro x hx
      by_cases hn0 : n ≤ 0
      · right
        have h0 : n.toNat = 0 := by omega
        rw [h0] at hlen ⊢
        have : l = [] := List.length_eq_zero_iff.1 (by omega)
        subst this
        exact ⟨rfl, by simp⟩
      -- the member that is found
      have hone : ∀ a, Moment cf un C (Sys.start C st) before during a →
          ∃ nq, Base cf un st q k ms nq ∧ ∃ m ∈ membersAfter cf un st C (mems Es) a,
            Candidate (sizesOf st) nq m.key ∧ x = (m.orig, score (sizesOf st) nq m.key) ∧
            st.key cf un m.orig = some m.key := by
        intro a ha
        obtain ⟨nq, k', hb, m, hm, hc, hx'⟩ := Rep.of_finds (hrun' a).1 (hx a ha)
        rw [hsizes] at hc hx'
        refine ⟨nq, ?_, m, hm, hc, hx', ?_⟩
        · rw [hbase] at hb
          obtain ⟨qs, kk, h1, h2, h3, h4⟩ := hb
          exact ⟨qs, n, h1, hn, by omega, h4⟩
        · obtain ⟨Ea, ha1, ha2⟩ := (hrun' a).1
          rw [← ha2] at hm
          obtain ⟨e, he, rfl⟩ := List.mem_map.1 hm
          have := (ha1.good.keys e he).1
          rwa [(hrun' a).2.1] at this
      have hfull : Moment cf un C (Sys.start C st) before during
          (wstarts cf un C (Sys.start C st) (before ++ during)) := by
        refine ⟨List.prefix_rfl, fun j hj _ => ?_⟩
        rw [← hLt]; exact List.mem_append_left _ hj
      obtain ⟨nq, hb, m, _, hc, hx', hk⟩ := hone _ hfull
      have hm : ∀ a, a <+: wstarts cf un C (Sys.start C st) (before ++ during) → (∀ j ∈ J, j ∈ a) →
          m ∈ membersAfter cf un st C (mems Es) a := by
        intro a a1 a2
        obtain ⟨nq', hb', m', hm', _, hx'', hk'⟩ := hone a ((hmom a).2 ⟨a1, a2⟩)
        have ho : m'.orig = m.orig := by
          have := congrArg Prod.fst (hx''.symm.trans hx'); exact this
        have hkk : m'.key = m.key := by
          rw [ho, hk] at hk'; injection hk' with hk'; exact hk'.symm
        have : m' = m := by
          cases m; cases m'; simp only at ho hkk; rw [ho, hkk]
        rw [← this]; exact hm'
      obtain ⟨e, he, hem, hcomp⟩ := g.complete ⟨_, hLt⟩ (fun j hj => (hJm j).1 hj) hm
      have heE1 : e ∈ E1 := by
        rw [hE1, List.mem_filter, decide_eq_true_eq]
        exact ⟨he, hcomp, by rw [hem]; exact hm⟩
      have := hall nq hb e heE1 (by rw [hem]; exact hc)
      rw [hem] at this
      rw [hx']
      exact this

/-- Thread 0 looks for similar words; meanwhile thread 2 discards one. -/
def writeDuring (n : ℕ) : List ℕ := List.replicate n 0 ++ List.replicate 30 2 ++ List.replicate 25 0

theorem writeDuring_exclusive : ExclusiveW (List.map Char.toLower) none writeCalls
    (Sys.start writeCalls demoState) (List.replicate 20 1 ++ writeDuring 2) :=
  exclusiveW_of_test writeCalls_isWriter (typed_start _ _) (by decide +kernel)

theorem writeDuring_result : ((Sys.start writeCalls demoState).run (List.map Char.toLower) none writeCalls
    (List.replicate 20 1 ++ writeDuring 2)).pc 0 = .find (.done (.ok [(['a', 'x'], 2 / 7)])) := by
  decide +kernel

/-- The word that is there all the time is found; the one that is discarded is not. -/
example : ∃ a, Moment (List.map Char.toLower) none writeCalls (Sys.start writeCalls demoState)
    (List.replicate 20 1) (writeDuring 2) a ∧
    Finds (List.map Char.toLower) none (demoState.run (List.map Char.toLower) none
      (a.map fun j => (writeCalls j).op)) (.str ['a', 'b', 'c']) .none (['a', 'x'], 2 / 7) := by
  rcases C187_find_while_writing demoState_reach writeCalls_fair (by decide +kernel)
    writeDuring_exclusive (i := 0) rfl (by decide) writeDuring_result with
    h | ⟨_, _, _, h, _⟩ | ⟨l, n, h, _, _, _, _, hm, _⟩
  · cases h
  · cases h
  · injection h with h
    subst h
    exact hm _ (by simp)

/-- The word is discarded after its id has been read from the index. -/
example : ((Sys.start writeCalls demoState).run (List.map Char.toLower) none writeCalls
    (List.replicate 20 1 ++ writeDuring 6)).pc 0 = .find (.done (.error (.py .keyError))) := by
  decide +kernel

end Conc
end Verif
