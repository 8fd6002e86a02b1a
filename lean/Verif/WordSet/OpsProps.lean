import Verif.WordSet.OpsLemmas

/-!
# Properties of the inherited operators of `WordSet` (C109–C112)
-/

namespace Verif

open WordSetSpec

variable {cf : List Char → List Char} {un : Normalizer}

/-- The set has a word with this normal form. -/
def HasForm (cf : List Char → List Char) (un : Normalizer) (st : WS) (k : List Char) : Prop :=
  ∃ o ∈ st.iter, keyOf st.caseSensitive cf un o = some k

/-- A word that can be added: not empty, accepted by the normaliser, not empty afterwards. -/
def Addable (cf : List Char → List Char) (un : Normalizer) (st : WS) (w : List Char) : Prop :=
  w ≠ [] ∧ ∃ k, keyOf st.caseSensitive cf un w = some k ∧ k ≠ []

theorem Rep.hasForm {st : WS} {s : List Member} (h : Rep cf un st s) (k : List Char) :
    HasForm cf un st k ↔ Mem s k := by
  unfold HasForm Mem
  rw [h.iter]
  constructor
  · rintro ⟨o, ho, hk⟩
    obtain ⟨m, hm, rfl⟩ := List.mem_map.1 ho
    have := (h.keys m hm).1
    unfold WS.key at this
    rw [this] at hk
    exact ⟨m, hm, Option.some.inj hk⟩
  · rintro ⟨m, hm, rfl⟩
    exact ⟨m.orig, List.mem_map.2 ⟨m, hm, rfl⟩, (h.keys m hm).1⟩

/-! ## C109: the in-place operators -/

/-- `ws |= words`: succeeds; the normal forms are the union; the words that were there keep their
place and spelling, and what follows them was given. -/
theorem C109_ior {st : WS} (h : WSReachable cf un st) (W : List (List Char))
    (hW : ∀ w ∈ W, Addable cf un st w) :
    ∃ st', st.iorArg cf un (.iterable (W.map .str)) = (st', .ok ()) ∧ WSReachable cf un st' ∧
      st'.caseSensitive = st.caseSensitive ∧
      (∃ t, st'.iter = st.iter ++ t ∧ t ⊆ W) ∧
      ∀ k, HasForm cf un st' k ↔
        HasForm cf un st k ∨ ∃ w ∈ W, keyOf st.caseSensitive cf un w = some k := by
  have hr := h.rep
  obtain ⟨h1, h2, h3⟩ := hr.forEach (f := WS.add cf un) (g := absAdd (st.key cf un)) (st := st)
    (fun st' s v hc hs => by
      have := hs.add v
      rw [hc.key] at this
      exact this) (SameConfig.refl _) (W.map .str)
  obtain ⟨t, ht, ht', ht''⟩ := absIor (key := st.key cf un) W hW (st.members cf un)
  rw [ht] at h1 h2
  refine ⟨(st.ior cf un (W.map .str)).1, Prod.ext rfl h2, h.run [.ior (W.map .str)], h3.1, ?_, ?_⟩
  · refine ⟨t.map Member.orig, ?_, ?_⟩
    · rw [show (st.ior cf un (W.map .str)).1.iter = _ from h1.iter, hr.iter, List.map_append]
    · intro o ho
      obtain ⟨m, hm, rfl⟩ := List.mem_map.1 ho
      exact ht' m hm
  · intro k
    rw [show HasForm cf un (st.ior cf un (W.map .str)).1 k ↔ _ from h1.hasForm k, hr.hasForm, ht'']
    rfl

/-- `ws -= words`: succeeds as soon as every word can be normalised, and keeps exactly the words
whose normal form was not given, in order. -/
theorem C109_isub {st : WS} (h : WSReachable cf un st) (W : List (List Char))
    (hW : ∀ w ∈ W, ∃ k, keyOf st.caseSensitive cf un w = some k) :
    ∃ st', st.isubArg cf un (.iterable (W.map .str)) = (st', .ok ()) ∧ WSReachable cf un st' ∧
      st'.caseSensitive = st.caseSensitive ∧
      st'.iter = st.iter.filter (fun o => decide (∀ w ∈ W,
        keyOf st.caseSensitive cf un w ≠ keyOf st.caseSensitive cf un o)) := by
  have hr := h.rep
  obtain ⟨h1, h2, h3⟩ := hr.forEach (f := WS.discard cf un) (g := absDiscard (st.key cf un))
    (st := st) (fun st' s v hc hs => by
      have := hs.discard v
      rw [hc.key] at this
      exact this) (SameConfig.refl _) (W.map .str)
  rw [absIsub (key := st.key cf un) W hW] at h1 h2
  refine ⟨(st.isub cf un (W.map .str)).1, Prod.ext rfl h2, h.run [.isub (W.map .str)], h3.1, ?_⟩
  rw [show (st.isub cf un (W.map .str)).1.iter = _ from h1.iter, hr.iter, List.filter_map]
  congr 1
  apply List.filter_congr
  intro m hm
  have := (hr.keys m hm).1
  simp only [Function.comp_apply]
  rw [decide_eq_decide, show keyOf st.caseSensitive cf un m.orig = _ from this]
  rfl

/-- `ws ^= words` for a set of words: succeeds; a normal form is there afterwards iff it was there
before and an even number of the given words has it, or was not and an odd number has it. -/
theorem C109_ixor {st : WS} (h : WSReachable cf un st) (W : List (List Char))
    (hW : ∀ w ∈ W, Addable cf un st w) :
    ∃ st', st.ixor cf un (.set (W.map .str)) = (st', .ok ()) ∧ WSReachable cf un st' ∧
      st'.caseSensitive = st.caseSensitive ∧
      ∀ k, HasForm cf un st' k ↔ ¬ (HasForm cf un st k ↔
        Odd (W.countP (fun w => keyOf st.caseSensitive cf un w = some k))) := by
  have hr := h.rep
  obtain ⟨h1, h2, h3⟩ := hr.forEach (f := WS.toggle cf un) (g := absToggle (st.key cf un))
    (st := st) (fun st' s v hc hs => by
      have := hs.toggle v
      rw [hc.key] at this
      exact this) (SameConfig.refl _) (W.map .str)
  obtain ⟨ht, ht'⟩ := absIxor (key := st.key cf un) W hW (st.members cf un)
  rw [ht] at h2
  refine ⟨(st.ixor cf un (.set (W.map .str))).1, Prod.ext rfl h2, toggles_reachable h _, h3.1, ?_⟩
  intro k
  rw [show HasForm cf un (st.ixor cf un (.set (W.map .str))).1 k ↔ _ from h1.hasForm k, hr.hasForm,
    ht']
  rfl

/-- If the given words have pairwise different normal forms, `ws ^= words` is the symmetric
difference: the words whose form was not given, then the given words whose form was not there, in
order. -/
theorem C109_ixor_distinct {st : WS} (h : WSReachable cf un st) (W : List (List Char))
    (hW : ∀ w ∈ W, Addable cf un st w) (hnd : (W.map (keyOf st.caseSensitive cf un)).Nodup) :
    (st.ixor cf un (.set (W.map .str))).1.iter =
      st.iter.filter (fun o => decide (∀ w ∈ W,
        keyOf st.caseSensitive cf un w ≠ keyOf st.caseSensitive cf un o)) ++
      W.filter (fun w => decide (∀ o ∈ st.iter,
        keyOf st.caseSensitive cf un w ≠ keyOf st.caseSensitive cf un o)) := by
  have hr := h.rep
  obtain ⟨h1, h2, h3⟩ := hr.forEach (f := WS.toggle cf un) (g := absToggle (st.key cf un))
    (st := st) (fun st' s v hc hs => by
      have := hs.toggle v
      rw [hc.key] at this
      exact this) (SameConfig.refl _) (W.map .str)
  rw [show (st.ixor cf un (.set (W.map .str))).1.iter = _ from h1.iter,
    absIxor_nodup (key := st.key cf un) W hW hnd, hr.iter, List.filter_map]
  congr 1
  · congr 1
    apply List.filter_congr
    intro m hm
    have := (hr.keys m hm).1
    simp only [Function.comp_apply]
    rw [decide_eq_decide, show keyOf st.caseSensitive cf un m.orig = _ from this]
    rfl
  · apply List.filter_congr
    intro w hw
    rw [decide_eq_decide, List.forall_mem_map]
    refine forall₂_congr fun m hm => ?_
    rw [show keyOf st.caseSensitive cf un m.orig = _ from (hr.keys m hm).1]
    rfl

/-- A plain Python set may hold two spellings of one word; then `^=` adds the word and removes it
again, so the result is not the symmetric difference. -/
theorem C109_ixor_duplicates :
    ∃ st : WS, WSReachable (List.map Char.toLower) none st ∧
      (st.ixor (List.map Char.toLower) none (.set [.str ['a'], .str ['A'], .str ['b']])).1.iter =
        [['b']] ∧
      st.iter = [] :=
  ⟨demoSet _ false [2] [], demoSet_reachable (by decide +kernel) _, by decide +kernel,
    by decide +kernel⟩

/-- The operators with the set itself on the right: `|=` changes nothing, `-=` and `^=` empty it. -/
theorem C109_self {st : WS} (h : WSReachable cf un st) :
    (∃ st', st.iorArg cf un .self = (st', .ok ()) ∧ st'.iter = st.iter) ∧
    (∃ st', st.isubArg cf un .self = (st', .ok ()) ∧ WSReachable cf un st' ∧ st'.iter = []) ∧
    (∃ st', st.ixor cf un .self = (st', .ok ()) ∧ WSReachable cf un st' ∧ st'.iter = []) := by
  have hr := h.rep
  refine ⟨?_, ⟨st.clear, rfl, h.run [.clear], rfl⟩, ⟨st.clear, rfl, h.run [.clear], rfl⟩⟩
  have hself : ∀ s : List Member, (∀ m ∈ s, m ∈ st.members cf un) →
      absForEach (absAdd (st.key cf un)) (st.members cf un) (s.map (fun m => .str m.orig)) =
        (st.members cf un, .ok ()) := by
    intro s hs
    induction s with
    | nil => rfl
    | cons m s ih =>
      have hm := hs m List.mem_cons_self
      obtain ⟨hk, hne⟩ := hr.keys m hm
      rw [List.map_cons, absForEach]
      have e : absAdd (st.key cf un) (st.members cf un) (.str m.orig) =
          (st.members cf un, .ok ()) := by
        rw [Good.add ⟨h.orig m hm, m.key, hk, hne⟩ hk]
        unfold WordSetSpec.insert
        rw [if_pos ⟨m, hm, rfl⟩]
      rw [e]
      exact ih (fun m hm => hs m (List.mem_cons_of_mem _ hm))
  obtain ⟨h1, h2, h3⟩ := hr.forEach (f := WS.add cf un) (g := absAdd (st.key cf un)) (st := st)
    (fun st' s v hc hs => by
      have := hs.add v
      rw [hc.key] at this
      exact this) (SameConfig.refl _) (st.iter.map .str)
  have e := hself (st.members cf un) (fun m hm => hm)
  have e' : (st.members cf un).map (fun m => PyVal.str m.orig) = st.iter.map .str := by
    rw [hr.iter, List.map_map]; rfl
  rw [e'] at e
  rw [e] at h1 h2
  exact ⟨(st.ior cf un (st.iter.map .str)).1, Prod.ext rfl h2, by
    rw [show (st.ior cf un (st.iter.map .str)).1.iter = _ from h1.iter, hr.iter]⟩

/-- An element that cannot be processed stops the operators at that point: what came before it has
been done, and the exception is the one of the single call. -/
theorem C109_stops_at_error {st st' : WS} (h : WSReachable cf un st) (pre rest : List PyVal)
    (v : PyVal) (e : PyErr) :
    (st.iorArg cf un (.iterable pre) = (st', .ok ()) → (st'.add cf un v).2 = .error e →
      st.iorArg cf un (.iterable (pre ++ v :: rest)) = (st', .error e)) ∧
    (st.isubArg cf un (.iterable pre) = (st', .ok ()) → (st'.discard cf un v).2 = .error e →
      st.isubArg cf un (.iterable (pre ++ v :: rest)) = (st', .error e)) ∧
    (st.ixor cf un (.set pre) = (st', .ok ()) → (st'.add cf un v).2 = .error e →
      st'.contains cf un v ≠ .ok true →
      ∃ e', st.ixor cf un (.set (pre ++ v :: rest)) = (st', .error e')) := by
  have key : ∀ (f : WS → PyVal → WS × Except PyErr Unit) (st : WS) (pre : List PyVal) (e : PyErr),
      WS.forEach f st pre = (st', .ok ()) → f st' v = (st', .error e) →
      WS.forEach f st (pre ++ v :: rest) = (st', .error e) := by
    intro f st pre e h1 h2
    induction pre generalizing st with
    | nil =>
      rw [WS.forEach] at h1
      cases h1
      rw [List.nil_append, WS.forEach, h2]
    | cons x pre ih =>
      rw [List.cons_append, WS.forEach]
      rw [WS.forEach] at h1
      cases hx : f st x with
      | mk s r =>
        rw [hx] at h1
        cases r with
        | ok u => exact ih s h1
        | error e' => cases h1
  refine ⟨fun h1 h2 => ?_, fun h1 h2 => ?_, fun h1 h2 h3 => ?_⟩
  · have hr : WSReachable cf un st' := by
      have := h.run [.ior pre]
      rwa [show st.run cf un [.ior pre] = st' from congrArg Prod.fst h1] at this
    exact key _ st pre e h1 (Prod.ext ((C36_errors_no_effect hr v e).1 h2) h2)
  · have hr : WSReachable cf un st' := by
      have := h.run [.isub pre]
      rwa [show st.run cf un [.isub pre] = st' from congrArg Prod.fst h1] at this
    exact key _ st pre e h1 (Prod.ext ((C36_errors_no_effect hr v e).2.1 h2) h2)
  · have hr : WSReachable cf un st' := by
      have := toggles_reachable h pre
      rwa [show (WS.forEach (WS.toggle cf un) st pre).1 = st' from congrArg Prod.fst h1] at this
    have ht : ∃ e', st'.toggle cf un v = (st', .error e') := by
      unfold WS.toggle
      cases hc : st'.contains cf un v with
      | error e' => exact ⟨e', rfl⟩
      | ok b =>
        cases b with
        | true => exact absurd hc h3
        | false => exact ⟨e, Prod.ext ((C36_errors_no_effect hr v e).1 h2) h2⟩
    obtain ⟨e', he'⟩ := ht
    exact ⟨e', key _ st pre e' h1 he'⟩

example : (wsDemo.iorArg (List.map Char.toLower) none
      (.iterable [.str ['x'], .str ['X'], .str ['y']])).1.iter = wsDemo.iter ++ [['x'], ['y']] ∧
    (wsDemo.isubArg (List.map Char.toLower) none
      (.iterable [.str ['N', 'I', 'G', 'H', 'T'], .str []])).1.iter =
      [['l', 'i', 'g', 'h', 't'], ['n', 'a', 'c', 'h', 't']] ∧
    (wsDemo.ixor (List.map Char.toLower) none
      (.set [.str ['N', 'I', 'G', 'H', 'T'], .str ['Z']])).1.iter =
      [['l', 'i', 'g', 'h', 't'], ['n', 'a', 'c', 'h', 't'], ['Z']] ∧
    (wsDemo.iorArg (List.map Char.toLower) none
      (.iterable [.str ['x'], .int 3, .str ['y']])).1.iter = wsDemo.iter ++ [['x']] := by
  decide +kernel

/-! ## C110: comparisons between two word sets -/

theorem contains_asOther {st st' : WS} (h : WSReachable cf un st) (h' : WSReachable cf un st')
    (hcs : st.caseSensitive = st'.caseSensitive) (m : Member) (hm : m ∈ st.members cf un) :
    st'.contains cf un (.str m.orig) = .ok (decide (Mem (st'.members cf un) m.key)) := by
  rw [h'.rep.contains]
  have := (h.rep.keys m hm).1
  have e : st'.key cf un = st.key cf un := by unfold WS.key; rw [hcs]
  rw [e]
  simp [absContains, this]

open Classical in
/-- The elements of one set, looked up in the other. -/
theorem allIn_members {st st' : WS} (h : WSReachable cf un st) (h' : WSReachable cf un st')
    (hcs : st.caseSensitive = st'.caseSensitive) :
    allIn (st'.contains cf un) (st.iter.map .str) =
      .ok (decide (∀ k, HasForm cf un st k → HasForm cf un st' k)) := by
  have hr := h.rep
  have hr' := h'.rep
  have key : ∀ s : List Member, (∀ m ∈ s, m ∈ st.members cf un) →
      allIn (st'.contains cf un) (s.map (fun m => .str m.orig)) =
        .ok (decide (∀ m ∈ s, Mem (st'.members cf un) m.key)) := by
    intro s hs
    induction s with
    | nil => simp [allIn]
    | cons m s ih =>
      rw [List.map_cons, allIn, contains_asOther h h' hcs m (hs m List.mem_cons_self)]
      by_cases hm : Mem (st'.members cf un) m.key
      · simp only [hm, decide_true]
        rw [ih (fun m hm => hs m (List.mem_cons_of_mem _ hm))]
        simp [hm]
      · simp [hm]
  rw [hr.iter, List.map_map, show PyVal.str ∘ Member.orig = fun m => PyVal.str m.orig from rfl,
    key _ (fun m hm => hm)]
  congr 1
  rw [decide_eq_decide]
  constructor
  · intro hall k hk
    obtain ⟨m, hm, rfl⟩ := (hr.hasForm k).1 hk
    exact (hr'.hasForm _).2 (hall m hm)
  · intro hall m hm
    exact (hr'.hasForm _).1 (hall _ ((hr.hasForm _).2 ⟨m, hm, rfl⟩))

theorem len_le_of_sub {st st' : WS} (h : WSReachable cf un st) (h' : WSReachable cf un st')
    (hs : ∀ k, HasForm cf un st k → HasForm cf un st' k) :
    st.len ≤ st'.len ∧ (st'.len ≤ st.len → ∀ k, HasForm cf un st' k → HasForm cf un st k) := by
  have hr := h.rep
  have hr' := h'.rep
  have hm : ∀ {t : WS}, Rep cf un t (t.members cf un) → ∀ k : List Char,
      HasForm cf un t k ↔ k ∈ (t.members cf un).map Member.key := by
    intro t ht k
    rw [ht.hasForm, List.mem_map]; rfl
  have hss : ((st.members cf un).map Member.key) ⊆ ((st'.members cf un).map Member.key) :=
    fun k hk => (hm hr' k).1 (hs k ((hm hr k).2 hk))
  have hp := List.subperm_of_subset hr.nodup hss
  refine ⟨by simpa [hr.len, hr'.len] using hp.length_le, fun hl k hk => ?_⟩
  have := hp.perm_of_length_le (by simpa [hr.len, hr'.len] using hl)
  exact (hm hr k).2 (this.mem_iff.2 ((hm hr' k).1 hk))

open Classical in
/-- Between two word sets with the same normalisation, `<=`, `<`, `>=`, `>` and `isdisjoint` never
raise and are inclusion, strict inclusion, their converses and disjointness of the sets of normal
forms. -/
theorem C110_comparisons {st st' : WS} (h : WSReachable cf un st) (h' : WSReachable cf un st')
    (hcs : st.caseSensitive = st'.caseSensitive) :
    (∃ b, st.leOther (st'.asOther cf un) = .ok b ∧
      (b = true ↔ ∀ k, HasForm cf un st k → HasForm cf un st' k)) ∧
    (∃ b, st.ltOther (st'.asOther cf un) = .ok b ∧
      (b = true ↔ (∀ k, HasForm cf un st k → HasForm cf un st' k) ∧
        ∃ k, HasForm cf un st' k ∧ ¬ HasForm cf un st k)) ∧
    (∃ b, st.geOther cf un (st'.asOther cf un) = .ok b ∧
      (b = true ↔ ∀ k, HasForm cf un st' k → HasForm cf un st k)) ∧
    (∃ b, st.gtOther cf un (st'.asOther cf un) = .ok b ∧
      (b = true ↔ (∀ k, HasForm cf un st' k → HasForm cf un st k) ∧
        ∃ k, HasForm cf un st k ∧ ¬ HasForm cf un st' k)) ∧
    (∃ b, st.isdisjoint cf un (st'.asOther cf un) = .ok b ∧
      (b = true ↔ ∀ k, ¬ (HasForm cf un st k ∧ HasForm cf un st' k))) := by
  have hlen : (st'.asOther cf un).elems.length = st'.len := by
    unfold WS.asOther
    rw [List.length_map, h'.rep.iter, List.length_map, h'.rep.len]
  have hle : st.leOther (st'.asOther cf un) =
      .ok (decide (∀ k, HasForm cf un st k → HasForm cf un st' k)) := by
    unfold WS.leOther
    rw [hlen]
    split
    · rename_i hl
      congr 1
      rw [eq_comm, decide_eq_false_iff_not]
      exact fun hc => absurd (len_le_of_sub h h' hc).1 (not_le.2 hl)
    · exact allIn_members h h' hcs
  have hge : st.geOther cf un (st'.asOther cf un) =
      .ok (decide (∀ k, HasForm cf un st' k → HasForm cf un st k)) := by
    unfold WS.geOther
    rw [hlen]
    split
    · rename_i hl
      congr 1
      rw [eq_comm, decide_eq_false_iff_not]
      exact fun hc => absurd (len_le_of_sub h' h hc).1 (not_le.2 hl)
    · exact allIn_members h' h hcs.symm
  refine ⟨⟨_, hle, decide_eq_true_iff⟩, ?_, ⟨_, hge, decide_eq_true_iff⟩, ?_, ?_⟩
  · unfold WS.ltOther
    rw [hlen, hle]
    split
    · rename_i hl
      refine ⟨_, rfl, ?_⟩
      rw [decide_eq_true_iff]
      refine ⟨fun hs => ⟨hs, ?_⟩, fun hs => hs.1⟩
      by_contra hc
      push Not at hc
      exact absurd (len_le_of_sub h' h hc).1 (not_le.2 hl)
    · rename_i hl
      refine ⟨false, rfl, ?_⟩
      simp only [Bool.false_eq_true, false_iff, not_and, not_exists, not_not]
      exact fun hs k hk => (len_le_of_sub h h' hs).2 (not_lt.1 hl) k hk
  · unfold WS.gtOther
    rw [hlen, hge]
    split
    · rename_i hl
      refine ⟨_, rfl, ?_⟩
      rw [decide_eq_true_iff]
      refine ⟨fun hs => ⟨hs, ?_⟩, fun hs => hs.1⟩
      by_contra hc
      push Not at hc
      exact absurd (len_le_of_sub h h' hc).1 (not_le.2 hl)
    · rename_i hl
      refine ⟨false, rfl, ?_⟩
      simp only [Bool.false_eq_true, false_iff, not_and, not_exists, not_not]
      exact fun hs k hk => (len_le_of_sub h' h hs).2 (not_lt.1 hl) k hk
  · have hr' := h'.rep
    have key : ∀ s : List Member, (∀ m ∈ s, m ∈ st'.members cf un) →
        noneIn (st.contains cf un) (s.map (fun m => .str m.orig)) =
          .ok (decide (∀ m ∈ s, ¬ Mem (st.members cf un) m.key)) := by
      intro s hs
      induction s with
      | nil => simp [noneIn]
      | cons m s ih =>
        rw [List.map_cons, noneIn, contains_asOther h' h hcs.symm m (hs m List.mem_cons_self)]
        by_cases hm : Mem (st.members cf un) m.key
        · simp [hm]
        · simp only [hm, decide_false]
          rw [ih (fun m hm => hs m (List.mem_cons_of_mem _ hm))]
          simp [hm]
    unfold WS.isdisjoint WS.asOther
    simp only
    rw [hr'.iter, List.map_map, show PyVal.str ∘ Member.orig = fun m => PyVal.str m.orig from rfl,
      key _ (fun m hm => hm)]
    refine ⟨_, rfl, ?_⟩
    rw [decide_eq_true_iff]
    constructor
    · rintro hall k ⟨hk, hk'⟩
      obtain ⟨m, hm, rfl⟩ := (hr'.hasForm k).1 hk'
      exact hall m hm ((h.rep.hasForm _).1 hk)
    · intro hall m hm hc
      exact hall m.key ⟨(h.rep.hasForm _).2 hc, (hr'.hasForm _).2 ⟨m, hm, rfl⟩⟩

example : wsDemo.ltOther ((wsDemo.run (List.map Char.toLower) none
      [.add (.str ['z'])]).asOther (List.map Char.toLower) none) = .ok true ∧
    wsDemo.gtOther (List.map Char.toLower) none (wsDemo.asOther (List.map Char.toLower) none) =
      .ok false ∧
    wsDemo.isdisjoint (List.map Char.toLower) none
      ((demoSet (List.map Char.toLower) false [2] [['N', 'A', 'C', 'H', 'T']]).asOther
        (List.map Char.toLower) none) = .ok false := by decide +kernel

/-! ## C111: comparisons with a Python set -/

open Classical in
/-- `ws <= S` for a Python set of strings compares spellings, while `ws >= S` and
`ws.isdisjoint(S)` compare normal forms (and `>=` also compares the sizes). -/
theorem C111_plain_set {st : WS} (h : WSReachable cf un st) (S : List (List Char))
    (hk : ∀ w ∈ S, ∃ k, keyOf st.caseSensitive cf un w = some k) :
    (∃ b, st.leOther (plainSet S) = .ok b ∧ (b = true ↔ st.iter ⊆ S)) ∧
    (∃ b, st.geOther cf un (plainSet S) = .ok b ∧ (b = true ↔ S.length ≤ st.iter.length ∧
      ∀ w ∈ S, ∃ o ∈ st.iter,
        keyOf st.caseSensitive cf un o = keyOf st.caseSensitive cf un w)) ∧
    (∃ b, st.isdisjoint cf un (plainSet S) = .ok b ∧ (b = true ↔ ∀ w ∈ S, ∀ o ∈ st.iter,
        keyOf st.caseSensitive cf un o ≠ keyOf st.caseSensitive cf un w)) := by
  have hr := h.rep
  have hlen : st.len = st.iter.length := by rw [hr.len, hr.iter, List.length_map]
  have hnd : st.iter.Nodup := by
    have := (C35_len_iter h).2.1
    exact this.of_map
  have hc : ∀ v ∈ S.map PyVal.str, st.contains cf un v =
      .ok (decide (∃ w, v = .str w ∧ ∃ o ∈ st.iter,
        keyOf st.caseSensitive cf un o = keyOf st.caseSensitive cf un w)) := by
    intro v hv
    obtain ⟨w, hw, rfl⟩ := List.mem_map.1 hv
    obtain ⟨k, hkw⟩ := hk w hw
    rw [C35_contains h hkw]
    congr 1
    rw [decide_eq_decide]
    constructor
    · rintro ⟨o, ho, e⟩; exact ⟨w, rfl, o, ho, by rw [e, hkw]⟩
    · rintro ⟨w', e, o, ho, e'⟩
      cases e
      exact ⟨o, ho, by rw [e', hkw]⟩
  refine ⟨?_, ?_, ?_⟩
  · unfold WS.leOther plainSet
    simp only [List.length_map]
    split
    · rename_i hl
      refine ⟨false, rfl, ?_⟩
      simp only [Bool.false_eq_true, false_iff]
      intro hs
      have := (List.subperm_of_subset hnd hs).length_le
      omega
    · refine ⟨_, allIn_eq (g := fun v => decide (v ∈ S.map PyVal.str)) (fun v _ => rfl), ?_⟩
      rw [List.all_eq_true]
      simp only [List.mem_map, decide_eq_true_eq, forall_exists_index, and_imp,
        forall_apply_eq_imp_iff₂, PyVal.str.injEq, exists_eq_right]
      rfl
  · unfold WS.geOther plainSet
    simp only [List.length_map]
    split
    · refine ⟨false, rfl, ?_⟩
      simp only [Bool.false_eq_true, false_iff, not_and]
      omega
    · refine ⟨_, allIn_eq hc, ?_⟩
      rw [List.all_eq_true]
      simp only [List.mem_map, decide_eq_true_eq, forall_exists_index, and_imp,
        forall_apply_eq_imp_iff₂, PyVal.str.injEq, exists_eq_left']
      exact ⟨fun hh => ⟨by omega, hh⟩, fun hh => hh.2⟩
  · unfold WS.isdisjoint plainSet
    refine ⟨_, noneIn_eq hc, ?_⟩
    rw [List.all_eq_true]
    simp only [List.mem_map, Bool.not_eq_true', decide_eq_false_iff_not, forall_exists_index,
      and_imp, forall_apply_eq_imp_iff₂, PyVal.str.injEq, not_exists, not_and, forall_eq',
      ne_eq]

/-- So a word set can contain every word of a Python set of the same size without `<=`, although
`>=` holds; and two spellings of a member make `>=` fail although each is `in` the set. -/
theorem C111_plain_set_spelling :
    ∃ st : WS, WSReachable (List.map Char.toLower) none st ∧
      st.leOther (plainSet [['a']]) = .ok false ∧
      st.geOther (List.map Char.toLower) none (plainSet [['a']]) = .ok true ∧
      st.geOther (List.map Char.toLower) none (plainSet [['a'], ['A']]) = .ok false ∧
      st.contains (List.map Char.toLower) none (.str ['a']) = .ok true ∧
      st.contains (List.map Char.toLower) none (.str ['A']) = .ok true :=
  ⟨demoSet _ false [2] [['A']], demoSet_reachable (by decide +kernel) _, by decide +kernel,
    by decide +kernel, by decide +kernel, by decide +kernel, by decide +kernel⟩

/-! ## C112: the operators that build a new set -/

/-- `&`, `|`, `-`, `^` raise `TypeError` whatever the right-hand side, since the inherited code
calls the constructor with a positional argument; `&=` raises it too and `^=` does for an iterable
that is not a set, leaving the set as it was. -/
theorem C112_binary_operators_raise (st : WS) (a : SetArg) (vs : List PyVal) :
    st.and a = .error .typeError ∧ st.or a = .error .typeError ∧ st.sub a = .error .typeError ∧
    st.xor a = .error .typeError ∧ st.iand cf un a = (st, .error .typeError) ∧
    st.ixor cf un (.iterable vs) = (st, .error .typeError) := by
  have hsub : ∀ a, st.sub a = .error .typeError := by intro a; cases a <;> rfl
  refine ⟨?_, ?_, hsub a, ?_, ?_, rfl⟩
  · cases a <;> rfl
  · cases a <;> rfl
  · cases a <;> rfl
  · unfold WS.iand; rw [hsub]

end Verif
