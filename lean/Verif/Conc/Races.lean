import Verif.Conc.Props

/-!
# `WordSet` used by several threads: what goes wrong (C161, C162)
-/

namespace Verif
namespace Conc

open GramSpec WordSetSpec

variable {cf : List Char → List Char} {un : Normalizer}

/-! ## One thread running alone -/

/-- `n` steps of one call of `add`. -/
def soloAdd (cf : List Char → List Char) (un : Normalizer)
    (ord : List (List Char) → List (List Char)) (v : PyVal) : ℕ → Shared → AddPc → Shared × AddPc
  | 0, m, p => (m, p)
  | n + 1, m, p => soloAdd cf un ord v n (addStep cf un ord v m p).1 (addStep cf un ord v m p).2

theorem soloAdd_add (ord : List (List Char) → List (List Char)) (v : PyVal) (a b : ℕ) (m : Shared)
    (p : AddPc) : soloAdd cf un ord v (a + b) m p =
      soloAdd cf un ord v b (soloAdd cf un ord v a m p).1 (soloAdd cf un ord v a m p).2 := by
  induction a generalizing m p with
  | zero => rw [Nat.zero_add]; rfl
  | succ a ih =>
    rw [show a + 1 + b = (a + b) + 1 by omega]
    exact ih _ _

theorem Sys.ext' {s t : Sys} (h1 : s.mem = t.mem) (h2 : ∀ j, s.pc j = t.pc j) : s = t := by
  cases s; cases t
  simp only at h1 h2
  subst h1
  congr 1
  exact funext h2

theorem step_add {C : ℕ → Call} {i : ℕ} {ord : List (List Char) → List (List Char)} {v : PyVal}
    (hC : C i = .add ord v) {s : Sys} {p p' : AddPc} (hp : s.pc i = .add p) {m' : Shared}
    (h : addStep cf un ord v s.mem p = (m', p')) :
    s.step cf un C i = ⟨m', fun j => if j = i then .add p' else s.pc j⟩ := by
  unfold Sys.step
  rw [hC, hp]
  simp only [callStep, h]

theorem run_cons {C : ℕ → Call} (s : Sys) (i : ℕ) (l : List ℕ) :
    s.run cf un C (i :: l) = (s.step cf un C i).run cf un C l := rfl

theorem run_append {C : ℕ → Call} (s : Sys) (a b : List ℕ) :
    s.run cf un C (a ++ b) = (s.run cf un C a).run cf un C b := by
  unfold Sys.run; rw [List.foldl_append]

theorem run_soloAdd {C : ℕ → Call} {i : ℕ} {ord : List (List Char) → List (List Char)} {v : PyVal}
    (hC : C i = .add ord v) (n : ℕ) (s : Sys) {p : AddPc} (hp : s.pc i = .add p) :
    s.run cf un C (List.replicate n i) =
      ⟨(soloAdd cf un ord v n s.mem p).1, fun j => if j = i then
        .add (soloAdd cf un ord v n s.mem p).2 else s.pc j⟩ := by
  induction n generalizing s p with
  | zero =>
    refine Sys.ext' (by rfl) ?_
    intro j
    by_cases hj : j = i
    · subst hj; simp [Sys.run, soloAdd, hp]
    · simp [Sys.run, hj]
  | succ n ih =>
    show (s.step cf un C i).run cf un C (List.replicate n i) = _
    have hp' : (s.step cf un C i).pc i = .add (addStep cf un ord v s.mem p).2 := by
      rw [Sys.step_pc_same, hC, hp]; rfl
    have hm' : (s.step cf un C i).mem = (addStep cf un ord v s.mem p).1 := by
      simp [Sys.step, hC, hp, callStep]
    rw [ih _ hp', hm']
    refine Sys.ext' (by rfl) ?_
    intro j
    by_cases hj : j = i
    · simp [hj, soloAdd]
    · simp only [if_neg hj]; exact Sys.step_pc_other hj

/-- The loop over the n-grams ends. -/
theorem soloAdd_test (ord : List (List Char) → List (List Char)) (v : PyVal) (id : ℕ)
    (gs : List (List Char)) (m : Shared) :
    ∃ n m', soloAdd cf un ord v n m (.test id gs) = (m', .done (.ok ())) ∧ m'.vocab = m.vocab ∧
      m'.originals = m.originals ∧ m'.info = m.info := by
  induction gs generalizing m with
  | nil => exact ⟨1, m, rfl, rfl, rfl, rfl⟩
  | cons g gs ih =>
    by_cases hh : Dict.has m.index g = true
    · obtain ⟨a, ha⟩ := Dict.mem_keys_iff.1 (Dict.has_iff.1 hh)
      obtain ⟨n, m', h1, h2, h3, h4⟩ := ih (m.modify a fun bm => if id ∈ bm then bm else bm ++ [id])
      refine ⟨3 + n, m', ?_, h2, h3, h4⟩
      rw [soloAdd_add]
      simp only [soloAdd, addStep, if_pos hh, ha]
      exact h1
    · obtain ⟨n, m', h1, h2, h3, h4⟩ := ih (Shared.modify { m with
        index := Dict.set m.index g m.maps.length
        maps := m.maps ++ [[]] } m.maps.length fun bm => if id ∈ bm then bm else bm ++ [id])
      refine ⟨4 + n, m', ?_, h2, h3, h4⟩
      have hset : Dict.get? (Dict.set m.index g m.maps.length) g = some m.maps.length := by
        rw [Dict.get?_set, if_pos rfl]
      rw [soloAdd_add]
      simp only [soloAdd, addStep, if_neg hh, hset]
      exact h1

/-- From line 216 on, a thread running alone stores the word. -/
theorem soloAdd_rest (ord : List (List Char) → List (List Char)) (v : PyVal) (w nw : List Char)
    (id : ℕ) (m : Shared) :
    ∃ n m', soloAdd cf un ord v n m (.readCounter w nw id) = (m', .done (.ok ())) ∧
      m'.vocab = Dict.set m.vocab nw id ∧ m'.originals = Dict.set m.originals id w ∧
      m'.info = Dict.set m.info id (m.view.computeInfo nw) := by
  have e : soloAdd cf un ord v 5 m (.readCounter w nw id) =
      ({ m with
        counter := m.counter + 1
        vocab := Dict.set m.vocab nw id
        originals := Dict.set m.originals id w
        info := Dict.set m.info id (m.view.computeInfo nw) },
        if m.filterN.isSome then .test id (ord (m.view.computeInfo nw).filterGrams)
        else .done (.ok ())) := rfl
  by_cases hf : m.filterN.isSome = true
  · rw [if_pos hf] at e
    obtain ⟨n, m', h1, h2, h3, h4⟩ := soloAdd_test (cf := cf) (un := un) ord v id
      (ord (m.view.computeInfo nw).filterGrams)
      { m with
        counter := m.counter + 1
        vocab := Dict.set m.vocab nw id
        originals := Dict.set m.originals id w
        info := Dict.set m.info id (m.view.computeInfo nw) }
    refine ⟨5 + n, m', ?_, h2, h3, h4⟩
    rw [soloAdd_add, e]
    exact h1
  · rw [if_neg hf] at e
    exact ⟨5, _, e, rfl, rfl, rfl⟩

/-! ## C161: a word is lost -/

theorem enter_new {st : WS} {ord : List (List Char) → List (List Char)} {w nw : List Char}
    {m : Shared} (hl : Like st m) (hk : keyOf st.caseSensitive cf un w = some nw) (hw : w ≠ [])
    (hnw : nw ≠ []) (hv : ¬ Dict.has m.vocab nw = true) :
    addStep cf un ord (.str w) m .enter = (m, .readId w nw) := by
  simp only [addStep, if_neg hw, hl.normalize, normalizeWord_eq, hk, if_neg hnw, if_neg hv]

/-- If two threads add two words at the same time, one of them can be lost: both calls return normally, the
length grows by two, but iteration yields only one of the words. -/
theorem C161_lost_word {st : WS} (h : WSReachable cf un st) {w₀ w₁ k₀ k₁ : List Char}
    (hw₀ : w₀ ≠ []) (hw₁ : w₁ ≠ [])
    (hk₀ : keyOf st.caseSensitive cf un w₀ = some k₀) (hk₁ : keyOf st.caseSensitive cf un w₁ = some k₁)
    (hn₀ : k₀ ≠ []) (hn₁ : k₁ ≠ []) (hne : k₀ ≠ k₁) (hm₀ : ¬ Mem (st.members cf un) k₀)
    (hm₁ : ¬ Mem (st.members cf un) k₁) {C : ℕ → Call} {o₀ o₁ : List (List Char) → List (List Char)}
    (hC₀ : C 0 = .add o₀ (.str w₀)) (hC₁ : C 1 = .add o₁ (.str w₁)) :
    ∃ sched, ((Sys.start C st).run cf un C sched).pc 0 = .add (.done (.ok ())) ∧
      ((Sys.start C st).run cf un C sched).pc 1 = .add (.done (.ok ())) ∧
      ((Sys.start C st).run cf un C sched).mem.view.len = st.len + 2 ∧
      ((Sys.start C st).run cf un C sched).mem.view.iter = st.iter ++ [w₁] := by
  obtain ⟨Es, hEs, hEm⟩ := h.rep
  rw [← hEm] at hm₀ hm₁
  have hl : Like st (Shared.ofWS st) := ⟨rfl, rfl, rfl⟩
  have hv₀ : ¬ Dict.has st.vocab k₀ = true := fun hc => hm₀ ((mem_vocab hEs _).1 hc)
  have hv₁ : ¬ Dict.has st.vocab k₁ = true := fun hc => hm₁ ((mem_vocab hEs _).1 hc)
  have e₀ := enter_new (cf := cf) (un := un) (ord := o₀) hl hk₀ hw₀ hn₀ hv₀
  have e₁ := enter_new (cf := cf) (un := un) (ord := o₁) hl hk₁ hw₁ hn₁ hv₁
  obtain ⟨n₀, m₀, a1, a2, a3, _⟩ := soloAdd_rest (cf := cf) (un := un) o₀ (.str w₀) w₀ k₀ st.counter
    (Shared.ofWS st)
  obtain ⟨n₁, m₁, b1, b2, b3, _⟩ := soloAdd_rest (cf := cf) (un := un) o₁ (.str w₁) w₁ k₁ st.counter m₀
  have hrun : (Sys.start C st).run cf un C ([0, 1, 0, 1] ++ (List.replicate n₀ 0 ++ List.replicate n₁ 1)) =
      ⟨m₁, fun j => if j = 1 then .add (.done (.ok ())) else
        if j = 0 then .add (.done (.ok ())) else (C j).pc⟩ := by
    have h4 : (Sys.start C st).run cf un C [0, 1, 0, 1] = ⟨Shared.ofWS st, fun j =>
        if j = 1 then .add (.readCounter w₁ k₁ st.counter) else
        if j = 0 then .add (.readCounter w₀ k₀ st.counter) else (C j).pc⟩ := by
      rw [run_cons, step_add hC₀ (p := .enter) (by simp [Sys.start, hC₀, Call.pc]) e₀,
        run_cons, step_add hC₁ (p := .enter) (by simp [Sys.start, hC₁, Call.pc]) e₁,
        run_cons, step_add hC₀ (p := .readId w₀ k₀) (by simp) rfl,
        run_cons, step_add hC₁ (p := .readId w₁ k₁) (by simp) rfl]
      refine Sys.ext' rfl ?_
      intro j
      by_cases h1 : j = 1
      · subst h1; rfl
      · by_cases h0 : j = 0
        · subst h0; rfl
        · simp [Sys.start, Sys.run, h0, h1]
    rw [run_append, run_append, h4, run_soloAdd hC₀ n₀ _ (p := .readCounter w₀ k₀ st.counter) rfl]
    simp only [a1]
    rw [run_soloAdd hC₁ n₁ _ (p := .readCounter w₁ k₁ st.counter) rfl]
    simp only [b1]
    refine Sys.ext' (by rfl) ?_
    intro j
    by_cases h1 : j = 1
    · simp [h1]
    · by_cases h0 : j = 0
      · simp [h0]
      · simp [h0, h1]
  have hc : st.counter ∉ Dict.keys st.originals := by
    rw [hEs.originals]
    unfold Dict.keys
    rw [List.map_map]
    intro hc
    obtain ⟨e, he, hc⟩ := List.mem_map.1 hc
    have := hEs.bound e he
    simp only [Function.comp_apply] at hc
    omega
  refine ⟨_, by rw [hrun]; rfl, by rw [hrun]; rfl, ?_, ?_⟩
  · rw [hrun]
    show m₁.vocab.length = st.vocab.length + 2
    rw [b2, a2, Dict.set_append, Dict.set_append]
    · simp [Shared.ofWS]
    · exact fun hc => hv₀ (Dict.has_iff.2 hc)
    · rw [show (Shared.ofWS st).vocab = st.vocab from rfl,
        Dict.set_append _ (fun hc => hv₀ (Dict.has_iff.2 hc))]
      unfold Dict.keys
      rw [List.map_append, List.mem_append]
      rintro (hc | hc)
      · exact hv₁ (Dict.has_iff.2 hc)
      · simp only [List.map_cons, List.map_nil, List.mem_singleton] at hc
        exact hne hc.symm
  · rw [hrun]
    show Dict.values m₁.originals = Dict.values st.originals ++ [w₁]
    rw [b3, a3, show (Shared.ofWS st).originals = st.originals from rfl, Dict.set_append _ hc]
    have : Dict.set (st.originals ++ [(st.counter, w₀)]) st.counter w₁ =
        st.originals ++ [(st.counter, w₁)] := by
      generalize st.originals = d at hc
      induction d with
      | nil => simp [Dict.set]
      | cons p d ih =>
        rw [Dict.keys_cons, List.mem_cons, not_or] at hc
        rw [List.cons_append]
        unfold Dict.set
        rw [if_neg (Ne.symm hc.1), ih hc.2]; rfl
    rw [this]
    unfold Dict.values
    rw [List.map_append]; rfl

/-- Two threads that add words. -/
def raceAdds : ℕ → Call
  | 0 => .add id (.str ['a', 'x'])
  | _ => .add id (.str ['b', 'c'])

example : ∃ sched,
    ((Sys.start raceAdds demoState).run (List.map Char.toLower) none raceAdds sched).pc 0 =
      .add (.done (.ok ())) ∧
    ((Sys.start raceAdds demoState).run (List.map Char.toLower) none raceAdds sched).pc 1 =
      .add (.done (.ok ())) ∧
    ((Sys.start raceAdds demoState).run (List.map Char.toLower) none raceAdds sched).mem.view.len = 3 ∧
    ((Sys.start raceAdds demoState).run (List.map Char.toLower) none raceAdds sched).mem.view.iter =
      [['a', 'b'], ['b', 'c']] :=
  C161_lost_word demoState_reach (w₀ := ['a', 'x']) (w₁ := ['b', 'c']) (k₀ := ['a', 'x'])
    (k₁ := ['b', 'c']) (by decide) (by decide) (by decide +kernel) (by decide +kernel) (by decide)
    (by decide) (by decide) (by decide +kernel) (by decide +kernel) (o₀ := id) (o₁ := id) rfl rfl

/-! ## C161: exceptions -/

/-- `n` steps of one call of `find_similar`. -/
def soloFind (cf : List Char → List Char) (un : Normalizer)
    (ord : List (List Char) → List (List Char)) (q k : PyVal) (ms : MinSim) (m : Shared) :
    ℕ → FindPc → FindPc
  | 0, p => p
  | n + 1, p => soloFind cf un ord q k ms m n (findStep cf un ord q k ms m p)

theorem soloFind_add (ord : List (List Char) → List (List Char)) (q k : PyVal) (ms : MinSim)
    (m : Shared) (a b : ℕ) (p : FindPc) : soloFind cf un ord q k ms m (a + b) p =
      soloFind cf un ord q k ms m b (soloFind cf un ord q k ms m a p) := by
  induction a generalizing p with
  | zero => rw [Nat.zero_add]; rfl
  | succ a ih =>
    rw [show a + 1 + b = (a + b) + 1 by omega]
    exact ih _

theorem run_soloFind {C : ℕ → Call} {i : ℕ} {ord : List (List Char) → List (List Char)}
    {q k : PyVal} {ms : MinSim} (hC : C i = .find ord q k ms) (n : ℕ) (s : Sys) {p : FindPc}
    (hp : s.pc i = .find p) :
    s.run cf un C (List.replicate n i) =
      ⟨s.mem, fun j => if j = i then .find (soloFind cf un ord q k ms s.mem n p) else s.pc j⟩ := by
  induction n generalizing s p with
  | zero =>
    refine Sys.ext' (by rfl) ?_
    intro j
    by_cases hj : j = i
    · subst hj; simp [Sys.run, soloFind, hp]
    · simp [Sys.run, hj]
  | succ n ih =>
    show (s.step cf un C i).run cf un C (List.replicate n i) = _
    have hp' : (s.step cf un C i).pc i = .find (findStep cf un ord q k ms s.mem p) := by
      rw [Sys.step_pc_same, hC, hp]; rfl
    have hm' : (s.step cf un C i).mem = s.mem := by
      simp [Sys.step, hC, hp, callStep]
    rw [ih _ hp', hm']
    refine Sys.ext' (by rfl) ?_
    intro j
    by_cases hj : j = i
    · simp [hj, soloFind]
    · simp only [if_neg hj]; exact Sys.step_pc_other hj

theorem soloFind_inv {st : WS} {q k : PyVal} {ms : MinSim} {E1 E : List Entry} {m : Shared}
    {ord : List (List Char) → List (List Char)} (hord : ∀ l, (ord l).Perm l)
    (hg : Good cf un st E) (hs : Sound st m E) (h1 : ∀ e ∈ E1, e ∈ E ∧ Complete st m e) (n : ℕ)
    {p : FindPc} (h : FInv cf un st q k ms E1 E m p) :
    FInv cf un st q k ms E1 E m (soloFind cf un ord q k ms m n p) := by
  induction n generalizing p with
  | zero => exact h
  | succ n ih => exact ih (h.step hord hg hs h1)

/-- The n-grams are looked up one after the other. -/
theorem soloFind_collect (ord : List (List Char) → List (List Char)) (q k : PyVal) (ms : MinSim)
    (m : Shared) (nq : List Char) (gs : List (List Char)) (cand : List ℕ) :
    ∃ n cand', soloFind cf un ord q k ms m n (.collect nq gs cand) = .collect nq [] cand' := by
  induction gs generalizing cand with
  | nil => exact ⟨0, cand, rfl⟩
  | cons g gs ih =>
    cases hi : Dict.get? m.index g with
    | none =>
      obtain ⟨n, cand', h⟩ := ih cand
      refine ⟨1 + n, cand', ?_⟩
      rw [soloFind_add]
      simp only [soloFind, findStep, hi]
      exact h
    | some a =>
      by_cases hem : m.ids a = []
      · obtain ⟨n, cand', h⟩ := ih cand
        refine ⟨2 + n, cand', ?_⟩
        rw [soloFind_add]
        simp only [soloFind, findStep, hi, if_pos hem]
        exact h
      · obtain ⟨n, cand', h⟩ := ih (cand ++ m.ids a).dedup
        refine ⟨3 + n, cand', ?_⟩
        rw [soloFind_add]
        simp only [soloFind, findStep, hi, if_neg hem]
        exact h

/-- The first step on accepted arguments. -/
theorem enter_find {st : WS} {m : Shared} (hl : Like st m)
    {ord : List (List Char) → List (List Char)} {q nq : List Char} {k : ℤ} {ms : MinSim}
    (hk : 0 < k) (hms : ms.accepted = true) (hq : q ≠ []) (hv : m.vocab ≠ [])
    (hkey : keyOf st.caseSensitive cf un q = some nq) (hnq : nq ≠ []) :
    findStep cf un ord (.str q) (.int k) ms m .enter =
      match st.filterN with
      | some f => if (wsGrams nq f).dedup = [] then .done (.ok [])
        else .collect nq (ord (wsGrams nq f).dedup) []
      | none => .iter nq := by
  have hqv : ¬ (q = [] ∨ m.vocab = []) := by rw [not_or]; exact ⟨hq, hv⟩
  simp only [findStep, if_neg (not_le.2 hk), hms, if_neg hqv, hl.normalize, normalizeWord_eq, hkey,
    if_neg hnq, hl.2.2]
  cases st.filterN <;> rfl

/-- Scanning ids stops at the first that is unknown. -/
theorem soloFind_scan {st : WS} {E : List Entry} (hg : Good cf un st E) {m : Shared}
    (hl : Like st m) (ord : List (List Char) → List (List Char)) (q k : PyVal) (ms : MinSim)
    (nq : List Char) {i : ℕ} (hi : Dict.get? m.info i = none) (D : List Entry)
    (hD : ∀ e ∈ D, e ∈ E ∧ Ready st m e) (R : List ℕ) (D0 : List Entry) :
    ∃ n, soloFind cf un ord q k ms m n
      (.scan nq (D.map (fun e => e.id) ++ i :: R) (pairsOf (sizesOf st) nq D0)) =
      .done (.error (.py .keyError)) := by
  induction D generalizing D0 with
  | nil =>
    refine ⟨1, ?_⟩
    have : scoreWith m nq (pairsOf (sizesOf st) nq D0) i = .error .keyError := by
      unfold scoreWith WS.scoreStep pyKey
      rw [show m.view.info = m.info from rfl, hi]
      rfl
    simp only [soloFind, List.map_nil, List.nil_append, findStep, this]
  | cons e D ih =>
    obtain ⟨n, h⟩ := ih (fun e he => hD e (List.mem_cons_of_mem _ he)) (D0 ++ [e])
    refine ⟨n + 1, ?_⟩
    obtain ⟨h1, h2⟩ := hD e List.mem_cons_self
    simp only [soloFind, List.map_cons, List.cons_append, findStep, scoreWith_ready hg hl h1 h2]
    exact h

/-- If a word that shares an n-gram of the filter size with the query is discarded during
`find_similar`, the call can raise `KeyError`. -/
theorem C161_find_keyError {st : WS} (h : WSReachable cf un st) {f : ℕ}
    (hf : filterSize st.sizes = some f) {q nq : List Char} {k : ℤ} {ms : MinSim} (hk : 0 < k)
    (hms : ms.accepted = true) (hq : q ≠ []) (hkey : keyOf st.caseSensitive cf un q = some nq)
    (hnq : nq ≠ []) {w nw : List Char} (hw : keyOf st.caseSensitive cf un w = some nw)
    (hmem : Mem (st.members cf un) nw) (hcom : ∃ g ∈ grams f nq, g ∈ grams f nw) {C : ℕ → Call}
    {o₀ o₁ : List (List Char) → List (List Char)} (hC₀ : C 0 = .find o₀ (.str q) (.int k) ms)
    (hfair : (C 0).Fair) (hC₁ : C 1 = .discard o₁ (.str w)) :
    ∃ sched, ((Sys.start C st).run cf un C sched).pc 0 =
      .find (.done (.error (.py .keyError))) := by
  obtain ⟨Es, hEs, hEm⟩ := h.rep
  rw [← hEm] at hmem
  obtain ⟨_, hm1, hm2⟩ := hmem
  obtain ⟨e, he, rfl⟩ := List.mem_map.1 hm1
  subst hm2
  have hg := hEs.good
  have hidle := WSRep.idle hEs
  have hl : Like st (Shared.ofWS st) := ⟨rfl, rfl, rfl⟩
  have hord : ∀ l, (o₀ l).Perm l := by rw [hC₀] at hfair; exact hfair
  have hv : st.vocab ≠ [] := by
    rw [hEs.vocab, ne_eq, List.map_eq_nil_iff]
    intro hc; rw [hc] at he; cases he
  -- the filter
  obtain ⟨F, hF⟩ : ∃ F, st.filterN = some F := by
    cases hc : st.filterN with
    | some F => exact ⟨F, rfl⟩
    | none => have := hg.filterSize_none hc; unfold WS.sizes at hf; unfold sizesOf at this; rw [hf] at this; cases this
  have hFf : F.toNat = f := by
    have := hg.filterSize hF
    unfold WS.sizes at hf; unfold sizesOf at this
    rw [hf] at this; injection this with this; exact this.symm
  have hFp := hg.filterPos hF
  obtain ⟨g, hg1, hg2⟩ := hcom
  have hgs : ¬ ((wsGrams nq F).dedup = []) := by
    rw [wsGrams_eq hFp, hFf]
    intro hc
    have := List.mem_dedup.2 hg1
    rw [hc] at this; cases this
  -- collecting
  obtain ⟨n, cand, hcol⟩ := soloFind_collect (cf := cf) (un := un) o₀ (.str q) (.int k) ms
    (Shared.ofWS st) nq (o₀ (wsGrams nq F).dedup) []
  have hent := enter_find (cf := cf) (un := un) (ord := o₀) hl hk hms hq hv hkey hnq
  rw [hF] at hent
  simp only [if_neg hgs] at hent
  have hcol' : soloFind cf un o₀ (.str q) (.int k) ms (Shared.ofWS st) (1 + n) .enter =
      .collect nq [] cand := by
    rw [soloFind_add]
    simp only [soloFind]
    rw [hent]; exact hcol
  have hinv := soloFind_inv hord hg (hidle.sound hg) (fun e he => ⟨he, hidle.complete hg e he⟩) (1 + n)
    (show FInv cf un st (.str q) (.int k) ms Es Es (Shared.ofWS st) .enter from trivial)
  rw [hcol'] at hinv
  obtain ⟨hb, F', CE, hF', rfl, hcoll⟩ := hinv
  rw [hF] at hF'
  injection hF' with hF'
  subst hF'
  have heC : e ∈ CE := hcoll.all e he g (by rw [hFf]; exact hg1) (by simp) (by rw [hFf]; exact hg2)
  have hne : ¬ (CE.map (fun e => e.id) = []) := by
    rw [List.map_eq_nil_iff]; intro hc; rw [hc] at heC; cases heC
  have hscan : soloFind cf un o₀ (.str q) (.int k) ms (Shared.ofWS st) (1 + n + 1) .enter =
      .scan nq (CE.map (fun e => e.id)) [] := by
    rw [soloFind_add, hcol']
    simp only [soloFind, findStep, if_neg hne]
  -- discarding
  have hpc1 : (C 1).pc = .discard .enter := by rw [hC₁]; rfl
  have hhas : Dict.has st.vocab e.m.key = true := (mem_vocab hEs _).2 ⟨e.m, hm1, rfl⟩
  have hgv : Dict.get? st.vocab e.m.key = some e.id := by
    rw [hEs.vocab, get?_map_key _ hEs.nodup]; exact ⟨e, he, rfl, rfl⟩
  have hgo : Dict.has st.originals e.id = true := by
    rw [Dict.has_iff, hEs.originals]
    unfold Dict.keys; rw [List.map_map]; exact List.mem_map.2 ⟨e, he, rfl⟩
  have hgi : Dict.get? st.info e.id = some (st.computeInfo e.m.key) := by
    rw [hEs.info]; exact get?_map_id hEs.ids he
  have hd : ∀ (s : Sys), s.mem = Shared.ofWS st → s.pc 1 = .discard .enter →
      (s.run cf un C [1, 1, 1, 1]).mem =
        { Shared.ofWS st with
          vocab := Dict.erase st.vocab e.m.key
          originals := Dict.erase st.originals e.id
          info := Dict.erase st.info e.id } ∧ (s.run cf un C [1, 1, 1, 1]).pc 0 = s.pc 0 := by
    intro s hsm hsp
    have step : ∀ (s : Sys) (p p' : DiscardPc) (m' : Shared), s.pc 1 = .discard p →
        discardStep cf un o₁ (.str w) s.mem p = (m', p') →
        (s.step cf un C 1).mem = m' ∧ (s.step cf un C 1).pc 1 = .discard p' ∧
          (s.step cf un C 1).pc 0 = s.pc 0 := by
      intro s p p' m' h1 h2
      unfold Sys.step
      rw [hC₁, h1]
      simp [callStep, h2]
    have s1 := step s .enter (.popVocab e.m.key) (Shared.ofWS st) hsp (by
      rw [hsm]
      simp only [discardStep, hl.normalize, normalizeWord_eq, hw]
      exact if_pos hhas)
    have s2 := step (s.step cf un C 1) _ (.delOriginal e.id)
      { Shared.ofWS st with vocab := Dict.erase st.vocab e.m.key } s1.2.1 (by
      rw [s1.1]
      simp only [discardStep]
      rw [show (Shared.ofWS st).vocab = st.vocab from rfl, hgv])
    have s3 := step ((s.step cf un C 1).step cf un C 1) _ (.popInfo e.id)
      { Shared.ofWS st with
        vocab := Dict.erase st.vocab e.m.key
        originals := Dict.erase st.originals e.id } s2.2.1 (by
      rw [s2.1]
      simp only [discardStep]
      rw [show (Shared.ofWS st).originals = st.originals from rfl, if_pos hgo])
    have s4 := step (((s.step cf un C 1).step cf un C 1).step cf un C 1) _
      (if st.filterN.isSome then .test e.id (o₁ (st.computeInfo e.m.key).filterGrams)
        else .done (.ok ()))
      { Shared.ofWS st with
        vocab := Dict.erase st.vocab e.m.key
        originals := Dict.erase st.originals e.id
        info := Dict.erase st.info e.id } s3.2.1 (by
      rw [s3.1]
      simp only [discardStep]
      rw [show (Shared.ofWS st).info = st.info from rfl, hgi]
      rfl)
    refine ⟨s4.1, ?_⟩
    show ((((s.step cf un C 1).step cf un C 1).step cf un C 1).step cf un C 1).pc 0 = _
    rw [s4.2.2, s3.2.2, s2.2.2, s1.2.2]
  -- scanning
  obtain ⟨D, R, hDR⟩ := List.append_of_mem heC
  have hnd := hcoll.nodup
  rw [hDR, List.map_append, List.map_cons, List.nodup_append] at hnd
  have hnid : ∀ d ∈ D, d.id ≠ e.id := fun d hd =>
    hnd.2.2 _ (List.mem_map.2 ⟨d, hd, rfl⟩) _ List.mem_cons_self
  have hl' : Like st { Shared.ofWS st with
      vocab := Dict.erase st.vocab e.m.key
      originals := Dict.erase st.originals e.id
      info := Dict.erase st.info e.id } := ⟨rfl, rfl, rfl⟩
  obtain ⟨n', hn'⟩ := soloFind_scan hg hl' o₀ (.str q) (.int k) ms nq (i := e.id)
    (by simp only; rw [Dict.get?_erase, if_pos rfl]) D
    (fun d hd => by
      obtain ⟨d1, d2⟩ := hcoll.sub d (by rw [hDR]; simp [hd])
      refine ⟨d1, ?_, ?_⟩
      · show Dict.get? (Dict.erase st.info e.id) d.id = _
        rw [Dict.get?_erase, if_neg (Ne.symm (hnid d hd))]; exact d2.1
      · show Dict.get? (Dict.erase st.originals e.id) d.id = _
        rw [Dict.get?_erase, if_neg (Ne.symm (hnid d hd))]; exact d2.2)
    (R.map (fun e => e.id)) []
  refine ⟨List.replicate (1 + n + 1) 0 ++ ([1, 1, 1, 1] ++ List.replicate n' 0), ?_⟩
  rw [run_append, run_append]
  have hpc0 : (Sys.start C st).pc 0 = .find .enter := by show (C 0).pc = _; rw [hC₀]; rfl
  rw [run_soloFind hC₀ (1 + n + 1) _ hpc0]
  have hmst : (Sys.start C st).mem = Shared.ofWS st := rfl
  rw [hmst, hscan]
  obtain ⟨d1, d2⟩ := hd ⟨Shared.ofWS st, fun j => if j = 0 then
    .find (.scan nq (CE.map (fun e => e.id)) []) else (Sys.start C st).pc j⟩ rfl (by
      show (C 1).pc = _; exact hpc1)
  rw [run_soloFind hC₀ n' _ (d2.trans rfl)]
  simp only [if_true]
  rw [d1, hDR, List.map_append, List.map_cons]
  congr 1

/-- Without a filter, a word added during `find_similar` can make it raise `RuntimeError`. -/
theorem C161_find_runtimeError {st : WS} (h : WSReachable cf un st)
    (hf : filterSize st.sizes = none) {q nq : List Char} {k : ℤ} {ms : MinSim} (hk : 0 < k)
    (hms : ms.accepted = true) (hq : q ≠ []) (hkey : keyOf st.caseSensitive cf un q = some nq)
    (hnq : nq ≠ []) (hne : st.members cf un ≠ []) {w nw : List Char} (hw : w ≠ [])
    (hkw : keyOf st.caseSensitive cf un w = some nw) (hnw : nw ≠ [])
    (hnew : ¬ Mem (st.members cf un) nw) {C : ℕ → Call}
    {o₀ o₁ : List (List Char) → List (List Char)} (hC₀ : C 0 = .find o₀ (.str q) (.int k) ms)
    (hC₁ : C 1 = .add o₁ (.str w)) :
    ∃ sched, ((Sys.start C st).run cf un C sched).pc 0 = .find (.done (.error .runtimeError)) := by
  obtain ⟨Es, hEs, hEm⟩ := h.rep
  rw [← hEm] at hnew hne
  have hg := hEs.good
  have hl : Like st (Shared.ofWS st) := ⟨rfl, rfl, rfl⟩
  have hv : st.vocab ≠ [] := by
    rw [hEs.vocab, ne_eq, List.map_eq_nil_iff]
    intro hc; rw [hc] at hne; exact hne rfl
  have hF : st.filterN = none := by
    have := hg.filter
    unfold WS.sizes at hf
    rw [hf] at this; exact this
  have hent := enter_find (cf := cf) (un := un) (ord := o₀) hl hk hms hq hv hkey hnq
  rw [hF] at hent
  simp only at hent
  have hvn : ¬ Dict.has st.vocab nw = true := fun hc => hnew ((mem_vocab hEs _).1 hc)
  have e₁ := enter_new (cf := cf) (un := un) (ord := o₁) hl hkw hw hnw hvn
  obtain ⟨n, m₁, a1, _, _, a4⟩ := soloAdd_rest (cf := cf) (un := un) o₁ (.str w) w nw st.counter
    (Shared.ofWS st)
  have a1' : soloAdd cf un o₁ (.str w) (2 + n) (Shared.ofWS st) .enter = (m₁, .done (.ok ())) := by
    rw [soloAdd_add]
    simp only [soloAdd]
    rw [e₁]; exact a1
  have hpc0 : (Sys.start C st).pc 0 = .find .enter := by show (C 0).pc = _; rw [hC₀]; rfl
  have hpc1 : (C 1).pc = .add .enter := by rw [hC₁]; rfl
  have hmst : (Sys.start C st).mem = Shared.ofWS st := rfl
  have hcount : st.counter ∉ Dict.keys st.info := by
    rw [hEs.info]
    unfold Dict.keys
    rw [List.map_map]
    intro hc
    obtain ⟨e, he, hc⟩ := List.mem_map.1 hc
    have := hEs.bound e he
    simp only [Function.comp_apply] at hc
    omega
  refine ⟨List.replicate 2 0 ++ (List.replicate (2 + n) 1 ++ List.replicate 1 0), ?_⟩
  rw [run_append, run_append, run_soloFind hC₀ 2 _ hpc0, hmst]
  rw [run_soloAdd hC₁ (2 + n) _ (p := .enter) (by
    simp [Sys.start, hpc1])]
  simp only [a1']
  have hs2 : soloFind cf un o₀ (.str q) (.int k) ms (Shared.ofWS st) 2 .enter =
      .next nq st.info.length 0 [] := by
    rw [show (2 : ℕ) = 1 + 1 from rfl, soloFind_add]
    show soloFind cf un o₀ (.str q) (.int k) ms (Shared.ofWS st) 1
      (findStep cf un o₀ (.str q) (.int k) ms (Shared.ofWS st) .enter) = _
    rw [hent]; rfl
  rw [run_soloFind hC₀ 1 _ (p := .next nq st.info.length 0 []) (by simp [hs2])]
  have hlen : m₁.info.length ≠ st.info.length := by
    rw [a4, show (Shared.ofWS st).info = st.info from rfl, Dict.set_append _ hcount]
    simp
  simp only [if_true, soloFind, findStep, if_pos hlen]

/-- One thread looks for similar words, another discards one. -/
def raceDiscard : ℕ → Call
  | 0 => .find id (.str ['a', 'b', 'c']) (.int 5) .none
  | _ => .discard id (.str ['a', 'b'])

example : ∃ sched,
    ((Sys.start raceDiscard demoState).run (List.map Char.toLower) none raceDiscard sched).pc 0 =
      .find (.done (.error (.py .keyError))) :=
  C161_find_keyError demoState_reach (f := 2) (by decide +kernel) (nq := ['a', 'b', 'c']) (by decide)
    rfl (by decide) (by decide +kernel) (by decide) (w := ['a', 'b']) (nw := ['a', 'b'])
    (by decide +kernel) (by decide +kernel) (by decide +kernel) (o₀ := id) (o₁ := id) rfl
    (fun l => List.Perm.refl l) rfl

/-- One thread looks for similar words, another adds one. -/
def raceAdd : ℕ → Call
  | 0 => .find id (.str ['a', 'b', 'c']) (.int 5) .none
  | _ => .add id (.str ['x'])

/-- A set with one word and n-grams of size 5 only: no filter. -/
def demoState5 : WS := demoSet (List.map Char.toLower) true [5] [['a', 'b', 'c', 'd']]

example : ∃ sched,
    ((Sys.start raceAdd demoState5).run (List.map Char.toLower) none raceAdd sched).pc 0 =
      .find (.done (.error .runtimeError)) :=
  C161_find_runtimeError (demoSet_reachable (by decide +kernel) _) (by decide +kernel)
    (nq := ['a', 'b', 'c']) (by decide) rfl (by decide) (by decide +kernel) (by decide)
    (by decide +kernel) (w := ['x']) (nw := ['x']) (by decide) (by decide +kernel) (by decide)
    (by decide +kernel) (o₀ := id) (o₁ := id) rfl rfl

/-! ## C162 -/

/-- Even if words are added one at a time, `find_similar` need not see them in the order in which they were
added: it can return a word that was added later and miss a similar one that had been added completely
before it. No set to which the words had been added up to some point gives that answer. -/
theorem C162_find_not_atomic : ∃ (st : WS) (C : ℕ → Call) (sched : List ℕ)
    (res : List (List Char × ℚ)), WSReachable (List.map Char.toLower) none st ∧
    (∀ i, (C i).Fair) ∧ (∀ i, (C i).removes = false) ∧
    Exclusive (List.map Char.toLower) none C (Sys.start C st) sched ∧
    ∃ ord q k, C 0 = .find ord q k .none ∧
    ((Sys.start C st).run (List.map Char.toLower) none C sched).pc 0 = .find (.done (.ok res)) ∧
    ∀ js, js <+: starts (List.map Char.toLower) none C (Sys.start C st) sched →
      (st.run (List.map Char.toLower) none (js.map fun j => .add (C j).word)).findSimilar
        (List.map Char.toLower) none q k .none ≠ .ok res := by
  refine ⟨demoSet (List.map Char.toLower) true [2] [['z']], demoCalls,
    List.replicate 2 0 ++ List.replicate 20 1 ++ List.replicate 20 2 ++ List.replicate 20 0,
    [(['b', 'c'], 23 / 42)], demoSet_reachable (by decide +kernel) _, demoCalls_fair,
    demoCalls_keep, exclusive_of_test demoCalls_isAdd (typed_start _ _) (by decide +kernel),
    id, .str ['a', 'b', 'c'], .int 5, rfl, by decide +kernel, ?_⟩
  have hs : starts (List.map Char.toLower) none demoCalls
      (Sys.start demoCalls (demoSet (List.map Char.toLower) true [2] [['z']]))
      (List.replicate 2 0 ++ List.replicate 20 1 ++ List.replicate 20 2 ++ List.replicate 20 0) =
      [1, 2] := by decide +kernel
  rw [hs]
  have hall : ∀ js ∈ ([1, 2] : List ℕ).inits,
      ((demoSet (List.map Char.toLower) true [2] [['z']]).run (List.map Char.toLower) none
        (js.map fun j => .add (demoCalls j).word)).findSimilar (List.map Char.toLower) none
          (.str ['a', 'b', 'c']) (.int 5) .none ≠ .ok [(['b', 'c'], 23 / 42)] := by
    decide +kernel
  intro js hjs
  exact hall js ((List.mem_inits _ _).2 hjs)

end Conc
end Verif
