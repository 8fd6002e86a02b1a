import Verif.WordSet.Machine

/-!
# Properties of `WordSet` (C35–C43, C46–C49)

`WSReachable` ranges over all constructor arguments and all finite sequences of calls.
-/

namespace Verif

open GramSpec WordSetSpec

variable {cf : List Char → List Char} {un : Normalizer}

/-- Any state of a `WordSet` after construction and finitely many calls. -/
def WSReachable (cf : List Char → List Char) (un : Normalizer) (st : WS) : Prop :=
  ∃ cs callable sizes st₀ ops, WS.new cs callable sizes = .ok st₀ ∧ st = st₀.run cf un ops

/-- The configured sizes. -/
def WS.sizes (st : WS) : List ℕ := st.nList.map Int.toNat

/-- The members as seen through iteration and the normaliser. -/
def WS.members (cf : List Char → List Char) (un : Normalizer) (st : WS) : List Member :=
  st.iter.filterMap (fun o => (st.key cf un o).map (fun k => ⟨k, o⟩))

theorem Rep.members {st : WS} {s : List Member} (h : Rep cf un st s) : st.members cf un = s := by
  unfold WS.members
  rw [h.iter, List.filterMap_map]
  conv_rhs => rw [← List.filterMap_some (l := s)]
  apply List.filterMap_congr
  intro m hm
  simp [(h.keys m hm).1]

theorem WSReachable.rep {st : WS} (h : WSReachable cf un st) :
    Rep cf un st (st.members cf un) := by
  obtain ⟨cs, cb, sizes, st₀, ops, h₀, rfl⟩ := h
  have := ((Rep.new (cf := cf) (un := un) h₀).run ops).1
  rw [this.members]; exact this

theorem Rep.nodupMembers {st : WS} {s : List Member} (h : Rep cf un st s) : s.Nodup :=
  h.nodup.of_map

theorem Rep.nodupSizes {st : WS} {s : List Member} (h : Rep cf un st s) : st.sizes.Nodup := by
  obtain ⟨E, hE, _⟩ := h; exact hE.nodupN

theorem Rep.posSizes {st : WS} {s : List Member} (h : Rep cf un st s) : ∀ n ∈ st.sizes, 1 ≤ n := by
  obtain ⟨E, hE, _⟩ := h; exact hE.posN

/-- A set with the given words, for the examples. -/
def demoSet (cf : List Char → List Char) (cs : Bool) (ns : List ℤ) (ws : List (List Char)) : WS :=
  match WS.new (some cs) true (.iter ns) with
  | .ok st => st.run cf none (ws.map (fun w => .add (.str w)))
  | .error _ => ⟨cs, [], none, [], [], 0, [], []⟩

theorem demoSet_reachable {cs : Bool} {ns : List ℤ}
    (h : (WS.new (some cs) true (.iter ns)).toOption.isSome = true) (ws : List (List Char)) :
    WSReachable cf none (demoSet cf cs ns ws) := by
  unfold demoSet
  cases hn : WS.new (some cs) true (.iter ns) with
  | ok st => exact ⟨_, _, _, _, _, hn, rfl⟩
  | error e => rw [hn] at h; cases h

/-- The words `"night"`, `"light"`, `"nacht"` in a case-insensitive set with sizes 2 and 3. -/
def wsDemo : WS := demoSet (List.map Char.toLower) false [3, 2]
  [['N', 'i', 'g', 'h', 't'], ['l', 'i', 'g', 'h', 't'], ['n', 'I', 'g', 'h', 't'],
   ['n', 'a', 'c', 'h', 't']]

/-! ## C35 -/

/-- Every observation made through the public interface, along every sequence of calls on a freshly
constructed set, is the one made on the abstract insertion-ordered set. -/
theorem C35_refines_set {cs : Option Bool} {callable : Bool} {sizes : NArg} {st₀ : WS}
    (h : WS.new cs callable sizes = .ok st₀) (ops : List WSOp) :
    st₀.outputs cf un ops = absOutputs (keyOf st₀.caseSensitive cf un) st₀.sizes [] ops :=
  (Rep.new h).outputs ops

/-- The abstract state is recovered from iteration alone. -/
theorem C35_members {cs : Option Bool} {callable : Bool} {sizes : NArg} {st₀ : WS}
    (h : WS.new cs callable sizes = .ok st₀) (ops : List WSOp) :
    (st₀.run cf un ops).members cf un =
      absRun (keyOf st₀.caseSensitive cf un) st₀.sizes [] ops :=
  ((Rep.new (cf := cf) (un := un) h).run ops).1.members

/-- Membership after any history: a word is in the set iff some member has its normal form. -/
theorem C35_contains {st : WS} (h : WSReachable cf un st) {w k : List Char}
    (hk : keyOf st.caseSensitive cf un w = some k) :
    st.contains cf un (.str w) = .ok (decide (∃ o ∈ st.iter,
      keyOf st.caseSensitive cf un o = some k)) := by
  have hr := h.rep
  have h2 := (hr.step (.contains (.str w))).2.1
  simp only [WS.step, absStep, absContains, WS.key, hk, WSOut.bool.injEq] at h2
  rw [h2]
  congr 1
  rw [decide_eq_decide]
  rw [hr.iter]
  constructor
  · rintro ⟨m, hm, rfl⟩
    exact ⟨m.orig, List.mem_map.2 ⟨m, hm, rfl⟩, (hr.keys m hm).1⟩
  · rintro ⟨o, ho, hok⟩
    obtain ⟨m, hm, rfl⟩ := List.mem_map.1 ho
    refine ⟨m, hm, ?_⟩
    have := (hr.keys m hm).1
    unfold WS.key at this
    rw [this] at hok
    exact Option.some.inj hok

/-- The length is the number of iterated words, which have pairwise different normal forms. -/
theorem C35_len_iter {st : WS} (h : WSReachable cf un st) :
    st.len = st.iter.length ∧
    (st.iter.map (keyOf st.caseSensitive cf un)).Nodup ∧
    ∀ o ∈ st.iter, ∃ k, keyOf st.caseSensitive cf un o = some k ∧ k ≠ [] := by
  have hr := h.rep
  refine ⟨by rw [hr.len, hr.iter, List.length_map], ?_, ?_⟩
  · rw [hr.iter, List.map_map]
    have : (st.members cf un).map (keyOf st.caseSensitive cf un ∘ Member.orig) =
        ((st.members cf un).map Member.key).map some := by
      rw [List.map_map]
      apply List.map_congr_left
      intro m hm
      exact (hr.keys m hm).1
    rw [this]
    exact hr.nodup.map (Option.some_injective _)
  · intro o ho
    rw [hr.iter] at ho
    obtain ⟨m, hm, rfl⟩ := List.mem_map.1 ho
    exact ⟨m.key, hr.keys m hm⟩

theorem wsDemo_reach : WSReachable (List.map Char.toLower) none wsDemo :=
  demoSet_reachable (by decide +kernel) _

example : wsDemo.iter = [['N', 'i', 'g', 'h', 't'], ['l', 'i', 'g', 'h', 't'],
    ['n', 'a', 'c', 'h', 't']] := by decide +kernel

example : wsDemo.contains (List.map Char.toLower) none (.str ['N', 'I', 'G', 'H', 'T']) = .ok true ∧
    wsDemo.contains (List.map Char.toLower) none (.str ['x']) = .ok false ∧
    wsDemo.contains (List.map Char.toLower) none (.int 3) = .ok false := by decide +kernel

example : (wsDemo.run (List.map Char.toLower) none [.pop, .discard (.str ['L', 'i', 'g', 'h', 't']),
    .add (.str ['N', 'I', 'G', 'H', 'T'])]).iter =
    [['n', 'a', 'c', 'h', 't'], ['N', 'I', 'G', 'H', 'T']] := by decide +kernel

/-! ## C36 -/

/-- An `add`, `discard`, `remove` or `pop` that raises leaves the whole state unchanged. -/
theorem C36_errors_no_effect {st : WS} (h : WSReachable cf un st) (v : PyVal) (e : PyErr) :
    ((st.add cf un v).2 = .error e → (st.add cf un v).1 = st) ∧
    ((st.discard cf un v).2 = .error e → (st.discard cf un v).1 = st) ∧
    ((st.remove cf un v).2 = .error e → (st.remove cf un v).1 = st) ∧
    ((st.pop cf un).2 = .error e → (st.pop cf un).1 = st) := by
  have hr := h.rep
  have hd : ∀ v, (st.discard cf un v).2 = .error e → (st.discard cf un v).1 = st := by
    intro v he
    cases v with
    | int i => rfl
    | other => rfl
    | str w =>
      have h2 := (hr.discard (.str w)).2.1
      rw [he] at h2
      unfold absDiscard at h2
      cases hk : st.key cf un w with
      | none =>
        unfold WS.key at hk
        simp [WS.discard, normalizeWord_eq, hk]
      | some k => simp [hk] at h2
  refine ⟨?_, hd v, ?_, ?_⟩
  · intro he
    cases v with
    | int i => rfl
    | other => rfl
    | str w =>
      unfold WS.add at he ⊢
      simp only at he ⊢
      split
      · rfl
      · rename_i hw
        rw [if_neg hw] at he
        cases hn : st.normalizeWord cf un w with
        | error e => rfl
        | ok nw =>
          rw [hn] at he
          simp only at he ⊢
          split
          · rfl
          · rename_i hnw
            rw [if_neg hnw] at he
            split
            · rfl
            · rename_i hv
              rw [if_neg hv] at he
              cases he
  · intro he
    cases v with
    | int i => rfl
    | other => rfl
    | str w =>
      have h2 := (hr.remove (.str w)).2.1
      rw [he] at h2
      unfold WS.remove at he ⊢
      simp only at he ⊢
      cases hn : st.normalizeWord cf un w with
      | error e => rfl
      | ok nw =>
        rw [hn] at he
        simp only at he ⊢
        split
        · rename_i hv
          rw [if_pos hv] at he
          exact hd _ he
        · rfl
  · intro he
    have h2 := hr.pop.2.1
    rw [he] at h2
    cases hs : st.members cf un with
    | nil =>
      have hi := hr.iter
      rw [hs] at hi
      unfold WS.pop
      rw [hi]; rfl
    | cons m s => rw [hs] at h2; cases h2

/-- Which exception `add` raises, and exactly when. -/
theorem C36_add_errors {st : WS} (h : WSReachable cf un st) (v : PyVal) :
    (st.add cf un v).2 =
      match v with
      | .str w =>
        if w = [] ∨ keyOf st.caseSensitive cf un w = none ∨
            keyOf st.caseSensitive cf un w = some [] then .error .valueError else .ok ()
      | _ => .error .typeError := by
  rw [(h.rep.add v).2.1]
  cases v with
  | int i => rfl
  | other => rfl
  | str w =>
    cases w with
    | nil => rfl
    | cons c w =>
      unfold absAdd WS.key
      cases hk : keyOf st.caseSensitive cf un (c :: w) with
      | none => simp [hk]
      | some k => cases k <;> simp [hk]

example : (wsDemo.add (List.map Char.toLower) none (.str ['a', '\x00'])).2 = .error .valueError ∧
    (wsDemo.discard (List.map Char.toLower) none .other).2 = .error .typeError ∧
    (wsDemo.remove (List.map Char.toLower) none (.str ['x'])).2 = .error .keyError ∧
    (wsDemo.clear.pop (List.map Char.toLower) none).2 = .error .keyError := by decide +kernel

/-! ## C37 -/

/-- `remove(w)` raises `KeyError` iff the word is normalisable and `w in ws` is false. -/
theorem C37_remove_keyError_iff {st : WS} (h : WSReachable cf un st) (w : List Char) :
    (st.remove cf un (.str w)).2 = .error .keyError ↔
      st.contains cf un (.str w) = .ok false := by
  have h1 := (h.rep.remove (.str w)).2.1
  have h2 := (h.rep.step (.contains (.str w))).2.1
  simp only [WS.step, absStep, absContains, WSOut.bool.injEq] at h2
  rw [h1, h2]
  unfold absRemove
  cases hk : st.key cf un w with
  | none => simp [hk]
  | some k =>
    simp only [hk]
    by_cases hm : Mem (st.members cf un) k <;> simp [hm]

/-- When the word is present `remove` is `discard`, and afterwards the word is absent. -/
theorem C37_remove_present {st : WS} (h : WSReachable cf un st) {w : List Char}
    (hc : st.contains cf un (.str w) = .ok true) :
    st.remove cf un (.str w) = st.discard cf un (.str w) ∧
    (st.remove cf un (.str w)).2 = .ok () ∧
    (st.remove cf un (.str w)).1.contains cf un (.str w) = .ok false ∧
    (st.remove cf un (.str w)).1.len + 1 = st.len := by
  have hr := h.rep
  have h1 := hr.remove (.str w)
  have h2 := (hr.step (.contains (.str w))).2.1
  simp only [WS.step, absStep, absContains, WSOut.bool.injEq] at h2
  rw [hc] at h2
  cases hk : st.key cf un w with
  | none => rw [hk] at h2; simp at h2
  | some k =>
    rw [hk] at h2
    simp only [Except.ok.injEq] at h2
    have hm := of_decide_eq_true h2.symm
    unfold absRemove at h1
    simp only [hk, if_pos hm] at h1
    obtain ⟨h3, h4, h5⟩ := h1
    refine ⟨?_, h4, ?_, ?_⟩
    · have hv : Dict.has st.vocab k = true := by
        obtain ⟨E, hE, hEs⟩ := hr
        rw [mem_vocab hE, hEs]; exact hm
      unfold WS.key at hk
      simp [WS.remove, normalizeWord_eq, hk, hv]
    · have h6 := (h3.step (.contains (.str w))).2.1
      simp only [WS.step, absStep, absContains, WSOut.bool.injEq] at h6
      rw [h6, h5.key, hk]
      simp only [Except.ok.injEq, decide_eq_false_iff_not]
      rintro ⟨m, hm, rfl⟩
      simp [WordSetSpec.delete] at hm
    · rw [h3.len, hr.len]
      obtain ⟨m, hm, rfl⟩ := hm
      obtain ⟨a, b, hab⟩ := List.append_of_mem hm
      have hn := hr.nodup
      unfold WordSetSpec.delete
      rw [hab] at hn ⊢
      rw [List.map_append, List.map_cons, List.nodup_append, List.nodup_cons] at hn
      have ha : a.filter (fun x => x.key ≠ m.key) = a := by
        rw [List.filter_eq_self]
        intro x hx
        simp only [ne_eq, decide_not, Bool.not_eq_true', decide_eq_false_iff_not]
        exact hn.2.2 _ (List.mem_map.2 ⟨x, hx, rfl⟩) _ List.mem_cons_self
      have hb : b.filter (fun x => x.key ≠ m.key) = b := by
        rw [List.filter_eq_self]
        intro x hx
        simp only [ne_eq, decide_not, Bool.not_eq_true', decide_eq_false_iff_not]
        exact fun hc => hn.2.1.1 (List.mem_map.2 ⟨x, hx, hc⟩)
      rw [List.filter_append, List.filter_cons_of_neg (by simp), ha, hb]
      simp only [List.length_append, List.length_cons]
      omega

example : wsDemo.contains (List.map Char.toLower) none (.str ['N', 'I', 'g', 'h', 't']) = .ok true ∧
    (wsDemo.remove (List.map Char.toLower) none (.str ['N', 'I', 'g', 'h', 't'])).1.len = 2 := by
  decide +kernel

/-! ## C38 -/

/-- After any history: the ids listed for a filter n-gram are exactly those of the live words
containing it, and no bucket is empty. -/
theorem C38_index_exact {st : WS} (h : WSReachable cf un st) {f : ℕ}
    (hf : filterSize st.sizes = some f) (g : List Char) (i : ℕ) :
    ((∃ b, Dict.get? st.filterIndex g = some b ∧ i ∈ b) ↔
      ∃ w, Dict.get? st.vocab w = some i ∧ g ∈ grams f w) ∧
    (∀ b, Dict.get? st.filterIndex g = some b → b ≠ []) := by
  obtain ⟨E, hE, _⟩ := h.rep
  refine ⟨?_, hE.idxNe g⟩
  have h1 : (∃ b, Dict.get? st.filterIndex g = some b ∧ i ∈ b) ↔ i ∈ idsAt st.filterIndex g := by
    unfold idsAt
    cases Dict.get? st.filterIndex g <;> simp
  rw [h1, hE.idx]
  have hfn := hE.filter
  unfold WS.sizes at hf
  rw [hf, Option.map_some] at hfn
  constructor
  · rintro ⟨e, he, rfl, f', hf', hg⟩
    rw [hfn] at hf'
    injection hf' with hf'
    subst hf'
    refine ⟨e.m.key, ?_, hg⟩
    rw [hE.vocab, get?_map_key _ hE.nodup]
    exact ⟨e, he, rfl, rfl⟩
  · rintro ⟨w, hw, hg⟩
    rw [hE.vocab, get?_map_key _ hE.nodup] at hw
    obtain ⟨e, he, rfl, rfl⟩ := hw
    exact ⟨e, he, rfl, _, hfn, hg⟩

/-- `find_similar` with valid arguments and a normalisable query never raises; in every case the
only exceptions are `TypeError` and `ValueError`. -/
theorem C38_find_no_keyError {st : WS} (h : WSReachable cf un st) (q k : PyVal) (ms : MinSim) :
    (∀ e, st.findSimilar cf un q k ms = .error e → e = .typeError ∨ e = .valueError) ∧
    (∀ w n nq, q = .str w → k = .int n → 0 < n → ms.accepted = true →
      keyOf st.caseSensitive cf un w = some nq → ∃ r, st.findSimilar cf un q k ms = .ok r) := by
  rw [h.rep.findSimilar]
  constructor
  · intro e he
    unfold absFind at he
    split at he
    · split at he
      · injection he with he; exact Or.inr he.symm
      · split at he
        · cases he
        · split at he
          · injection he with he; exact Or.inr he.symm
          · split at he <;> cases he
    · injection he with he; exact Or.inr he.symm
    · injection he with he; exact Or.inl he.symm
  · rintro w n nq rfl rfl hn ha hk
    have hna := (accepted_iff ms).1 ha
    unfold absFind WS.key
    simp only
    rw [if_neg (by rw [not_or]; exact ⟨not_le.2 hn, hna⟩), hk]
    split
    · exact ⟨_, rfl⟩
    · simp only
      split
      · exact ⟨_, rfl⟩
      · exact ⟨_, rfl⟩

example : filterSize wsDemo.sizes = some 3 ∧
    Dict.get? wsDemo.filterIndex ['i', 'g', 'h'] = some [0, 1] ∧
    Dict.get? (wsDemo.discard (List.map Char.toLower) none (.str ['n', 'i', 'g', 'h', 't'])).1.filterIndex
      ['i', 'g', 'h'] = some [1] := by decide +kernel

/-! ## C39 -/

/-- The value of `find_similar` for valid arguments. -/
theorem find_value {st : WS} (h : WSReachable cf un st) {q nq : List Char} {k : ℤ} {ms : MinSim}
    (hk : 0 < k) (ha : ms.accepted = true) (hq : q ≠ [])
    (hnq : keyOf st.caseSensitive cf un q = some nq) (hne : nq ≠ []) :
    st.findSimilar cf un (.str q) (.int k) ms =
      .ok ((ranked st.sizes nq (st.members cf un) k.toNat).map
        (fun m => (m.orig, score st.sizes nq m.key))) := by
  rw [h.rep.findSimilar]
  have hna := (accepted_iff ms).1 ha
  unfold absFind WS.key
  simp only
  rw [if_neg (by rw [not_or]; exact ⟨not_le.2 hk, hna⟩), hnq]
  by_cases hs : st.members cf un = []
  · rw [if_pos (Or.inr hs), hs]; simp [ranked]
  · rw [if_neg (by simp [hq, hs])]
    simp only [if_neg hne]
    rfl

/-- `find_similar` returns the `k` preferred candidates, most preferred first, each under its
original spelling and with its true score. -/
theorem C39_best_k_first {st : WS} (h : WSReachable cf un st) {q nq : List Char} {k : ℤ}
    {ms : MinSim} (hk : 0 < k) (ha : ms.accepted = true) (hq : q ≠ [])
    (hnq : keyOf st.caseSensitive cf un q = some nq) (hne : nq ≠ []) :
    ∃ R, Ranking st.sizes nq (st.members cf un) k.toNat R ∧
      (∀ R', Ranking st.sizes nq (st.members cf un) k.toNat R' → R' = R) ∧
      st.findSimilar cf un (.str q) (.int k) ms =
        .ok (R.map (fun m => (m.orig, score st.sizes nq m.key))) :=
  ⟨_, ranked_ranking h.rep.nodupMembers _,
    fun _ h' => ranking_unique h' (ranked_ranking h.rep.nodupMembers _),
    find_value h hk ha hq hnq hne⟩

example : wsDemo.findSimilar (List.map Char.toLower) none (.str ['N', 'a', 'c', 'h', 't']) (.int 5) .none =
    .ok [(['n', 'a', 'c', 'h', 't'], 1), (['N', 'i', 'g', 'h', 't'], 4 / 11),
      (['l', 'i', 'g', 'h', 't'], 3 / 11)] ∧
    keyOf wsDemo.caseSensitive (List.map Char.toLower) none ['N', 'a', 'c', 'h', 't'] =
      some ['n', 'a', 'c', 'h', 't'] := by decide +kernel

/-! ## C40 -/

theorem totalCount_pos_of_candidate {ns : List ℕ} {q w : List Char}
    (h : Candidate ns q w) : 0 < totalCount ns q w := by
  unfold Candidate at h
  cases hf : filterSize ns with
  | none => rw [hf] at h; exact h
  | some f =>
    rw [hf] at h
    obtain ⟨g, hg, _⟩ := h
    exact totalCount_pos_of_gram (filterSize_mem hf) hg

/-- Scores lie in `[0, 1]`, and a returned word has score 1 exactly when its normal form is that of
the query. -/
theorem C40_score_range {st : WS} (h : WSReachable cf un st) {q nq : List Char} {k : ℤ}
    {ms : MinSim} {res : List (List Char × ℚ)} (hq : q ≠ [])
    (hnq : keyOf st.caseSensitive cf un q = some nq) (hne : nq ≠ [])
    (hres : st.findSimilar cf un (.str q) (.int k) ms = .ok res) :
    ∀ r ∈ res, 0 ≤ r.2 ∧ r.2 ≤ 1 ∧ (r.2 = 1 ↔ keyOf st.caseSensitive cf un r.1 = some nq) := by
  have hr := h.rep
  have hk : 0 < k := by
    by_contra hk
    rw [not_lt] at hk
    unfold WS.findSimilar at hres
    simp only [if_pos hk] at hres
    cases hres
  have ha : ms.accepted = true := by
    unfold WS.findSimilar at hres
    simp only [if_neg (not_le.2 hk)] at hres
    cases hm : ms.accepted with
    | true => rfl
    | false => rw [hm] at hres; cases hres
  rw [find_value h hk ha hq hnq hne] at hres
  injection hres with hres
  subst hres
  intro r hrm
  obtain ⟨m, hm, rfl⟩ := List.mem_map.1 hrm
  obtain ⟨hms, hc⟩ := (ranked_ranking hr.nodupMembers k.toNat).members m hm
  refine ⟨score_nonneg hr.nodupSizes _ _, score_le_one hr.nodupSizes _ _, ?_⟩
  simp only
  rw [score_eq_one_iff hr.nodupSizes hr.posSizes (totalCount_pos_of_candidate hc)]
  have := (hr.keys m hms).1
  unfold WS.key at this
  rw [this]
  simp only [Option.some.injEq]
  exact eq_comm

example : wsDemo.findSimilar (List.map Char.toLower) none (.str ['N', 'I', 'G', 'H', 'T']) (.int 2) .none =
    .ok [(['N', 'i', 'g', 'h', 't'], 1), (['l', 'i', 'g', 'h', 't'], 7 / 11)] := by decide +kernel

/-! ## C41 -/

/-- Long enough to be found: it has an n-gram of the filter size, or without a filter, of some
configured size. -/
def LongEnough (ns : List ℕ) (w : List Char) : Prop :=
  match filterSize ns with
  | some f => f ≤ w.length + 2
  | none => ∃ n ∈ ns, n ≤ w.length + 2

theorem candidate_self {ns : List ℕ} {w : List Char} (hpos : ∀ n ∈ ns, 1 ≤ n)
    (h : LongEnough ns w) : Candidate ns w w := by
  have hg : ∀ n, 1 ≤ n → n ≤ w.length + 2 → ∃ g, g ∈ grams n w := by
    intro n h1 h2
    apply List.exists_mem_of_length_pos
    rw [length_grams]; unfold count bracketed; simp only [List.length_cons, List.length_append, List.length_nil]; omega
  unfold LongEnough at h
  unfold Candidate
  cases hf : filterSize ns with
  | some f =>
    rw [hf] at h
    obtain ⟨g, hg⟩ := hg f (hpos f (filterSize_mem hf)) h
    exact ⟨g, hg, hg⟩
  | none =>
    rw [hf] at h
    obtain ⟨n, hn, hle⟩ := h
    obtain ⟨g, hg⟩ := hg n (hpos n hn) hle
    exact totalCount_pos_of_gram hn hg

/-- If the query is a member and long enough, it is returned first, in its original spelling, with
score 1. -/
theorem C41_exact_first {st : WS} (h : WSReachable cf un st) {q nq : List Char} {k : ℤ}
    {ms : MinSim} (hk : 0 < k) (ha : ms.accepted = true) (hq : q ≠ [])
    (hnq : keyOf st.caseSensitive cf un q = some nq) (hl : LongEnough st.sizes nq)
    {o : List Char} (ho : o ∈ st.iter) (hok : keyOf st.caseSensitive cf un o = some nq) :
    ∃ rest, st.findSimilar cf un (.str q) (.int k) ms = .ok ((o, 1) :: rest) := by
  have hr := h.rep
  rw [hr.iter] at ho
  obtain ⟨m, hm, rfl⟩ := List.mem_map.1 ho
  have hmk := hr.keys m hm
  unfold WS.key at hmk
  rw [hok] at hmk
  obtain ⟨hmk, hne⟩ := hmk
  injection hmk with hmk
  have hne : nq ≠ [] := by rw [hmk]; exact hne
  rw [find_value h hk ha hq hnq hne]
  have hR := ranked_ranking (ns := st.sizes) (q := nq) hr.nodupMembers k.toNat
  have hcm : Candidate st.sizes nq m.key := by rw [← hmk]; exact candidate_self hr.posSizes hl
  have hsm : score st.sizes nq m.key = 1 :=
    (score_eq_one_iff hr.nodupSizes hr.posSizes (totalCount_pos_of_candidate hcm)).2 hmk
  cases hc : ranked st.sizes nq (st.members cf un) k.toNat with
  | nil =>
    exfalso
    have hlen := hR.length
    rw [hc, List.length_nil] at hlen
    have : 0 < ((st.members cf un).filter (fun m => Candidate st.sizes nq m.key)).length :=
      List.length_pos_of_mem (List.mem_filter.2 ⟨hm, decide_eq_true hcm⟩)
    omega
  | cons b rest =>
    rw [hc] at hR
    have hb : b = m := by
      by_contra hbm
      have hp : Preferred st.sizes nq (st.members cf un) b m := by
        by_cases hin : m ∈ b :: rest
        · rcases List.mem_cons.1 hin with e | e
          · exact absurd e.symm hbm
          · exact List.rel_of_pairwise_cons hR.ordered e
        · exact hR.best m hm hcm hin b List.mem_cons_self
      obtain ⟨hbs, hbc⟩ := hR.members b List.mem_cons_self
      have hb1 : score st.sizes nq b.key = 1 := by
        apply le_antisymm (score_le_one hr.nodupSizes _ _)
        rcases hp with hp | ⟨hp, _⟩
        · rw [hsm] at hp; exact hp.le
        · rw [hsm] at hp; exact hp.le
      have hbk := (score_eq_one_iff hr.nodupSizes hr.posSizes
        (totalCount_pos_of_candidate hbc)).1 hb1
      exact hbm (List.inj_on_of_nodup_map hr.nodup hbs hm (by rw [← hbk, hmk]))
    subst hb
    exact ⟨rest.map (fun m => (m.orig, score st.sizes nq m.key)), by rw [List.map_cons, hsm]⟩

example : LongEnough wsDemo.sizes ['n', 'i', 'g', 'h', 't'] ∧ ['N', 'i', 'g', 'h', 't'] ∈ wsDemo.iter ∧
    keyOf wsDemo.caseSensitive (List.map Char.toLower) none ['N', 'i', 'g', 'h', 't'] =
      some ['n', 'i', 'g', 'h', 't'] := by
  have h : filterSize wsDemo.sizes = some 3 := by decide +kernel
  refine ⟨?_, by decide +kernel, by decide +kernel⟩
  unfold LongEnough
  rw [h]
  decide

/-- Without the length condition this fails: with `ngram_sizes=4` the one-letter word `"a"` is a
member and is not found. -/
theorem C41_short_word_not_found :
    ∃ st : WS, WSReachable id none st ∧ st.contains id none (.str ['a']) = .ok true ∧
      st.findSimilar id none (.str ['a']) (.int 10) .none = .ok [] := by
  refine ⟨demoSet id true [4] [['a']], demoSet_reachable (by decide +kernel) _, ?_, ?_⟩ <;> decide +kernel

/-! ## C42 -/

/-- `min_similarity` is range-checked and otherwise ignored. -/
theorem C42_min_similarity_ignored {st : WS} (h : WSReachable cf un st) (q k : PyVal)
    (ms : MinSim) (ha : ms.accepted = true) :
    st.findSimilar cf un q k ms = st.findSimilar cf un q k .none := by
  rw [h.rep.findSimilar, h.rep.findSimilar]
  have h1 := (accepted_iff ms).1 ha
  have h2 := (accepted_iff .none).1 rfl
  unfold absFind
  split
  · simp only [or_iff_left h1, or_iff_left h2]
  · rfl
  · rfl

/-- A value outside `[0, 1]`, or not a number, raises `ValueError` for a string query and positive
`k`. -/
theorem C42_min_similarity_validated {st : WS} (q : List Char) {k : ℤ} (hk : 0 < k) {ms : MinSim}
    (ha : ms.accepted = false) :
    st.findSimilar cf un (.str q) (.int k) ms = .error .valueError := by
  unfold WS.findSimilar
  simp only [if_neg (not_le.2 hk), ha]

/-- Hence scores below the threshold are returned. -/
theorem C42_below_threshold_returned :
    ∃ (st : WS) (r : List Char × ℚ) (res : List (List Char × ℚ)), WSReachable id none st ∧
      st.findSimilar id none (.str ['a', 'b']) (.int 10) (.num 1) = .ok res ∧ r ∈ res ∧
      r.2 < 1 := by
  refine ⟨demoSet id true [2] [['a', 'c']], (['a', 'c'], 1 / 3), [(['a', 'c'], 1 / 3)], demoSet_reachable (by decide +kernel) _,
    ?_, List.mem_cons_self, by norm_num⟩
  decide +kernel

/-! ## C43 -/

/-- `suggest` is `find_similar` with the scores dropped, exceptions included. -/
theorem C43_suggest {st : WS} (q k : PyVal) :
    (∀ r, st.findSimilar cf un q k .none = .ok r → st.suggest cf un q k = .ok (r.map Prod.fst)) ∧
    (∀ e, st.findSimilar cf un q k .none = .error e → st.suggest cf un q k = .error e) := by
  constructor <;> intro x hx <;> unfold WS.suggest <;> rw [hx] <;> rfl

/-- The suggested words are distinct members, at most `k`. -/
theorem C43_suggest_members {st : WS} (h : WSReachable cf un st) {q : PyVal} {k : ℤ}
    {res : List (List Char)} (hres : st.suggest cf un q (.int k) = .ok res) :
    res.Nodup ∧ (∀ o ∈ res, o ∈ st.iter) ∧ (res.length : ℤ) ≤ k := by
  have hr := h.rep
  have hs := (hr.step (.suggest q (.int k))).2.1
  simp only [WS.step, absStep, WSOut.names.injEq] at hs
  rw [hres] at hs
  cases q with
  | int i => cases hs
  | other => cases hs
  | str q =>
    unfold absFind at hs
    simp only at hs
    split at hs
    · cases hs
    · rename_i hk
      rw [not_or, not_le] at hk
      split at hs
      · simp only [Except.map, Except.ok.injEq] at hs
        subst hs; simp; omega
      · split at hs
        · cases hs
        · rename_i nq _
          split at hs
          · simp only [Except.map, Except.ok.injEq] at hs
            subst hs; simp; omega
          · simp only [Except.map, Except.ok.injEq, List.map_map] at hs
            subst hs
            have hR := ranked_ranking (ns := st.sizes) (q := nq) hr.nodupMembers k.toNat
            change ((ranked st.sizes nq (st.members cf un) k.toNat).map Member.orig).Nodup ∧ _ ∧ _
            refine ⟨?_, ?_, ?_⟩
            · apply List.Nodup.map_on
              · intro x hx y hy hxy
                have hkx := hr.keys x (hR.members x hx).1
                have hky := hr.keys y (hR.members y hy).1
                cases x; cases y
                simp only at hxy hkx hky
                subst hxy
                rw [hkx.1] at hky
                injection hky.1 with e
                rw [e]
              · apply hR.ordered.imp
                rintro a b hab rfl
                exact preferred_asymm hab hab
            · intro o ho
              obtain ⟨m, hm, rfl⟩ := List.mem_map.1 ho
              rw [hr.iter]
              exact List.mem_map.2 ⟨m, (hR.members m hm).1, rfl⟩
            · have := hR.length
              rw [List.length_map]
              change ((ranked st.sizes nq (st.members cf un) k.toNat).length : ℤ) ≤ k
              omega

example : wsDemo.suggest (List.map Char.toLower) none (.str ['l', 'a', 'c', 'h', 't']) (.int 2) =
    .ok [['n', 'a', 'c', 'h', 't'], ['l', 'i', 'g', 'h', 't']] := by decide +kernel

/-! ## C46 -/

theorem le_eq {st st' : WS} (h : WSReachable cf un st) (h' : WSReachable cf un st')
    (hcs : st.caseSensitive = st'.caseSensitive) :
    st.le cf un st' = .ok (decide (st.len ≤ st'.len ∧
      ∀ m ∈ st.members cf un, Mem (st'.members cf un) m.key)) := by
  have hr := h.rep
  have hr' := h'.rep
  unfold WS.le
  by_cases hl : st.len > st'.len
  · rw [if_pos hl]
    congr 1
    rw [eq_comm, decide_eq_false_iff_not]
    exact fun hc => absurd hc.1 (not_le.2 hl)
  · rw [if_neg hl, hr.iter]
    have key : ∀ s : List Member, (∀ m ∈ s, st'.key cf un m.orig = some m.key) →
        (s.map Member.orig).foldr (fun w r => do
          if ← st'.contains cf un (.str w) then r else return false) (.ok true) =
        (.ok (decide (∀ m ∈ s, Mem (st'.members cf un) m.key)) : Except PyErr Bool) := by
      intro s hs
      induction s with
      | nil => simp
      | cons m s ih =>
        rw [List.map_cons, List.foldr_cons, ih (fun m hm => hs m (List.mem_cons_of_mem _ hm))]
        have h2 := (hr'.step (.contains (.str m.orig))).2.1
        simp only [WS.step, absStep, absContains, WSOut.bool.injEq,
          hs m List.mem_cons_self] at h2
        rw [h2]
        simp only [bind, Except.bind, pure, Except.pure]
        by_cases hm : Mem (st'.members cf un) m.key
        · simp [hm]
        · simp [hm]
    rw [key _ (fun m hm => by
      have := (hr.keys m hm).1
      unfold WS.key at this ⊢
      rw [← hcs]; exact this)]
    congr 1
    rw [decide_eq_decide]
    exact (and_iff_right (not_lt.1 hl)).symm

/-- Between two sets with the same normalisation, `==` never raises and is true exactly when the
sets of normal forms coincide; spelling and insertion order do not matter. -/
theorem C46_eq_iff_same_keys {st st' : WS} (h : WSReachable cf un st) (h' : WSReachable cf un st')
    (hcs : st.caseSensitive = st'.caseSensitive) :
    ∃ b, st.eq cf un st' = .ok b ∧ (b = true ↔ ∀ k : List Char,
      (∃ o ∈ st.iter, keyOf st.caseSensitive cf un o = some k) ↔
      (∃ o ∈ st'.iter, keyOf st'.caseSensitive cf un o = some k)) := by
  have hr := h.rep
  have hr' := h'.rep
  have hmem : ∀ {t : WS}, Rep cf un t (t.members cf un) → ∀ k : List Char,
      (∃ o ∈ t.iter, keyOf t.caseSensitive cf un o = some k) ↔
        k ∈ (t.members cf un).map Member.key := by
    intro t ht k
    rw [ht.iter, List.mem_map]
    constructor
    · rintro ⟨o, ho, hk⟩
      obtain ⟨m, hm, rfl⟩ := List.mem_map.1 ho
      have := (ht.keys m hm).1
      unfold WS.key at this
      rw [this] at hk
      exact ⟨m, hm, Option.some.inj hk⟩
    · rintro ⟨m, hm, rfl⟩
      exact ⟨m.orig, List.mem_map.2 ⟨m, hm, rfl⟩, (ht.keys m hm).1⟩
  simp only [hmem hr, hmem hr']
  have hcount : (∀ k, k ∈ (st.members cf un).map Member.key ↔
      k ∈ (st'.members cf un).map Member.key) → st.len = st'.len := by
    intro hk
    rw [hr.len, hr'.len, ← List.length_map Member.key, ← List.length_map (as := st'.members cf un) Member.key]
    exact ((List.perm_ext_iff_of_nodup hr.nodup hr'.nodup).2 hk).length_eq
  unfold WS.eq
  by_cases hl : st.len = st'.len
  · rw [if_pos hl, le_eq h h' hcs]
    refine ⟨_, rfl, ?_⟩
    rw [decide_eq_true_eq]
    constructor
    · rintro ⟨_, hsub⟩
      have hss : ((st.members cf un).map Member.key) ⊆ ((st'.members cf un).map Member.key) := by
        intro k hk
        obtain ⟨m, hm, rfl⟩ := List.mem_map.1 hk
        obtain ⟨m', hm', e⟩ := hsub m hm
        exact List.mem_map.2 ⟨m', hm', e⟩
      have hp := (List.subperm_of_subset hr.nodup hss).perm_of_length_le (by
        rw [List.length_map, List.length_map, ← hr.len, ← hr'.len, hl])
      exact fun k => hp.mem_iff
    · intro hk
      refine ⟨hl.le, fun m hm => ?_⟩
      obtain ⟨m', hm', e⟩ := List.mem_map.1 ((hk m.key).1 (List.mem_map.2 ⟨m, hm, rfl⟩))
      exact ⟨m', hm', e⟩
  · rw [if_neg hl]
    refine ⟨false, rfl, ?_⟩
    constructor
    · intro hc; cases hc
    · intro hk; exact absurd (hcount hk) hl

example : (demoSet (List.map Char.toLower) false [3] [['a'], ['B']]).eq (List.map Char.toLower) none
    (demoSet (List.map Char.toLower) false [2] [['b'], ['A']]) = .ok true := by decide +kernel

/-- Between sets with different normalisation, `==` is not symmetric. -/
theorem C46_eq_not_symmetric :
    ∃ st st' : WS, WSReachable (List.map Char.toLower) none st ∧
      WSReachable (List.map Char.toLower) none st' ∧
      st.eq (List.map Char.toLower) none st' = .ok false ∧
      st'.eq (List.map Char.toLower) none st = .ok true :=
  ⟨demoSet _ false [3] [['a']], demoSet _ true [3] [['A']], demoSet_reachable (by decide +kernel) _,
    demoSet_reachable (by decide +kernel) _, by decide +kernel, by decide +kernel⟩

/-! ## C47 -/

/-- The future behaviour of a set depends only on its configuration and the words it iterates,
not on how it was built. -/
theorem C47_history_independent {st st' : WS} (h : WSReachable cf un st)
    (h' : WSReachable cf un st') (hcs : st.caseSensitive = st'.caseSensitive)
    (hns : st.sizes = st'.sizes) (hi : st.iter = st'.iter) (ops : List WSOp) :
    st.outputs cf un ops = st'.outputs cf un ops := by
  rw [h.rep.outputs, h'.rep.outputs]
  have hk : st.key cf un = st'.key cf un := by unfold WS.key; rw [hcs]
  have hm : st.members cf un = st'.members cf un := by unfold WS.members; rw [hi, hk]
  rw [hk, hm]
  unfold WS.sizes at hns
  rw [hns]

example : let st := demoSet id true [3] [['a'], ['b']]
    let st' := (demoSet id true [3] [['x'], ['a'], ['b']]).run id none [.pop]
    st.iter = st'.iter ∧ st.sizes = st'.sizes ∧ st ≠ st' := by decide +kernel

/-! ## C48 -/

/-- Acceptable `ngram_sizes`. -/
def SizesValid : NArg → Prop
  | .int n => 0 < n
  | .iter ns => ns ≠ [] ∧ ∀ n ∈ ns, 0 < n
  | .other => False

/-- `ngram_sizes` is an integer. -/
def NArg.isInt : NArg → Bool
  | .int _ => true
  | _ => false

/-- The sizes requested by `ngram_sizes`. -/
def SizesMem (n : ℤ) : NArg → Prop
  | .int m => n = m
  | .iter ns => n ∈ ns
  | .other => False

/-- Construction succeeds iff the arguments are valid, and then yields an empty set with the
requested sizes in strictly ascending order; otherwise it raises `TypeError`, or `ValueError` for a
non-positive integer. -/
theorem C48_constructor (cs : Option Bool) (callable : Bool) (sizes : NArg) :
    (cs.isSome ∧ callable = true ∧ SizesValid sizes →
      ∃ st, WS.new cs callable sizes = .ok st ∧ st.iter = [] ∧ st.len = 0 ∧
        some st.caseSensitive = cs ∧
        st.sizes.Pairwise (· < ·) ∧ ∀ n : ℕ, n ∈ st.sizes ↔ SizesMem n sizes) ∧
    (¬ (cs.isSome ∧ callable = true ∧ SizesValid sizes) →
      WS.new cs callable sizes =
        .error (if cs.isSome ∧ callable = true ∧ sizes.isInt = true
          then .valueError else .typeError)) := by
  have hsz : ∀ ns, mkSizes sizes = .ok ns →
      (ns.map Int.toNat).Pairwise (· < ·) ∧ ∀ n : ℕ, n ∈ ns.map Int.toNat ↔ SizesMem n sizes := by
    intro ns hns
    obtain ⟨_, h2, h3⟩ := mkSizes_spec hns
    constructor
    · rw [List.pairwise_map]
      apply h3.imp_of_mem
      intro a b ha hb hab
      have := h2 a ha
      omega
    · have hm : ∀ n : ℤ, n ∈ ns ↔ SizesMem n sizes := by
        intro n
        cases sizes with
        | int m =>
          unfold mkSizes at hns
          simp only at hns
          split at hns
          · cases hns
          · injection hns with hns; subst hns; simp [SizesMem]
        | iter l =>
          unfold mkSizes at hns
          simp only at hns
          split at hns
          · cases hns
          · injection hns with hns; subst hns; simp [SizesMem]
        | other => cases hns
      intro n
      rw [← hm, List.mem_map]
      constructor
      · rintro ⟨a, ha, rfl⟩
        have := h2 a ha
        rwa [Int.toNat_of_nonneg this.le]
      · intro hn
        exact ⟨n, hn, by simp⟩
  cases cs with
  | none => simp [WS.new, throw, throwThe, MonadExceptOf.throw, bind, Except.bind]
  | some c =>
    cases callable with
    | false => simp [WS.new, throw, throwThe, MonadExceptOf.throw, bind, Except.bind, pure, Except.pure]
    | true =>
      cases hm : mkSizes sizes with
      | ok ns =>
        have hv : SizesValid sizes := by
          cases sizes with
          | int m =>
            unfold mkSizes at hm
            simp only at hm
            split at hm
            · cases hm
            · simp only [SizesValid]; omega
          | iter l =>
            obtain ⟨h1, h2, _⟩ := mkSizes_spec hm
            have h3 := (hsz ns hm).2
            refine ⟨?_, ?_⟩
            · rintro rfl
              cases hm
            · intro n hn
              unfold mkSizes at hm
              simp only at hm
              split at hm
              · cases hm
              · injection hm with hm; subst hm
                exact h2 n (by simpa using hn)
          | other => cases hm
        obtain ⟨h1, h2, h3⟩ := mkSizes_spec hm
        refine ⟨fun _ => ?_, fun hc => absurd ⟨rfl, rfl, hv⟩ hc⟩
        simp only [WS.new, bind, Except.bind, pure, Except.pure, not_true_eq_false, if_false, hm,
          effectiveFilter_eq h1 h2]
        exact ⟨_, rfl, rfl, rfl, rfl, hsz ns hm⟩
      | error e =>
        have hv : ¬ SizesValid sizes ∧ 
            e = (if sizes.isInt = true then PyErr.valueError else PyErr.typeError) := by
          cases sizes with
          | int m =>
            unfold mkSizes at hm
            simp only at hm
            split at hm
            · rename_i hle
              injection hm with hm
              simp only [SizesValid, not_lt, NArg.isInt, if_true]
              exact ⟨hle, hm.symm⟩
            · cases hm
          | iter l =>
            unfold mkSizes at hm
            simp only at hm
            split at hm
            · rename_i hc
              injection hm with hm
              refine ⟨?_, by simp [← hm, NArg.isInt]⟩
              rintro ⟨hl, hp⟩
              rcases hc with hc | hc
              · obtain ⟨x, hx⟩ := List.exists_mem_of_ne_nil _ hl
                have : x ∈ (l.dedup).insertionSort (· ≤ ·) := by simpa using hx
                rw [hc] at this; cases this
              · rw [List.any_eq_true] at hc
                obtain ⟨x, hx, hle⟩ := hc
                have := hp x (by simpa using hx)
                have hle := of_decide_eq_true hle
                omega
            · cases hm
          | other =>
            injection hm with hm
            exact ⟨fun h => h, by simp [← hm, NArg.isInt]⟩
        refine ⟨fun hc => absurd hc.2.2 hv.1, fun _ => ?_⟩
        simp only [WS.new, bind, Except.bind, pure, Except.pure, not_true_eq_false, if_false, hm]
        rw [hv.2]
        simp

example : SizesValid (.iter [3, 2, 3]) ∧
    (WS.new (some true) true (.iter [3, 2, 3])).toOption.map WS.sizes = some [2, 3] ∧
    ¬ SizesValid (.iter [2, 0]) ∧ WS.new (some true) true (.iter [2, 0]) = .error .typeError ∧
    WS.new (some true) true (.int 0) = .error .valueError := by
  refine ⟨⟨by decide, by decide⟩, by decide +kernel, fun h => ?_, by decide +kernel,
    by decide +kernel⟩
  exact absurd (h.2 0 (by decide)) (by decide)


end Verif
