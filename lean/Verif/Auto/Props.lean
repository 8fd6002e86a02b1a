import Verif.Auto.MatchLemmas

/-!
# C76–C79: automata (experiments/automata.py)

`PickOk pick`: `pick` chooses an element of every non-empty set (`set.pop`); `OrderOk order`: `order`
lists the elements of a set (iteration over a set). The theorems hold for all such choices.
-/

namespace Verif
namespace Auto

open AutoSpec EditSpec

/-- Such choices exist. -/
theorem exists_pick_order : ∃ (pick : Finset State → State) (order : Finset Sym → List Sym),
    PickOk pick ∧ OrderOk order := by
  classical
  refine ⟨fun S => if h : S.Nonempty then h.choose else (0, 0), Finset.toList, fun S h => ?_,
    fun S c => Finset.mem_toList⟩
  simp only [h, dif_pos]
  exact h.choose_spec

/-- One call on an `NFA` object. -/
inductive Op where
  | transition (src : State) (x : Sym) (dest : State)
  | final (s : State)

/-- The effect of the call. -/
def NFA.apply (nfa : NFA) : Op → NFA
  | .transition s x t => nfa.addTransition s x t
  | .final s => nfa.addFinalState s

/-- The transitions that have been requested. -/
def transitionsOf (ops : List Op) : List (State × Sym × State) :=
  ops.filterMap (fun | .transition s x t => some (s, x, t) | .final _ => none)

/-- The final states that have been requested. -/
def finalsOf (ops : List Op) : List State :=
  ops.filterMap (fun | .transition _ _ _ => none | .final s => some s)

theorem rep_ops (ops : List Op) :
    Rep (ops.foldl NFA.apply NFA.new) (transitionsOf ops) (finalsOf ops) := by
  induction ops using List.reverseRecOn with
  | nil => exact rep_new
  | append_singleton ops op ih =>
    rw [List.foldl_append]
    cases op with
    | transition s x t =>
      have := ih.addTransition s x t
      simpa [transitionsOf, finalsOf, NFA.apply] using this
    | final s =>
      have := ih.addFinalState s
      simpa [transitionsOf, finalsOf, NFA.apply] using this

/-- **C76.** Whatever transitions and final states have been added, `to_dfa` returns an automaton
that accepts a word exactly when the original one accepts it and the word does not lead back to the
set of states in which the original one starts. -/
theorem C76_to_dfa {pick : Finset State → State} (hp : PickOk pick)
    {order : Finset Sym → List Sym} (ho : OrderOk order) (ops : List Op) (w : List ℕ) :
    let d := (ops.foldl NFA.apply NFA.new).toDFA pick order
    d.isFinal (d.run d.startState w) = true ↔
      Accepts (transitionsOf ops) (finalsOf ops) w ∧
        after (transitionsOf ops) w ≠ after (transitionsOf ops) [] := by
  obtain ⟨ids, hd⟩ := toDFA_ok hp ho (ops.foldl NFA.apply NFA.new)
  simp only
  rw [hd.startState, isFinal_run (rep_ops ops) hp hd]
  refine and_congr Iff.rfl (not_congr ⟨fun h => ?_, fun h => ?_⟩)
  · ext t
    simp only [after, Set.mem_ofPred_eq]
    rw [← mem_subset (rep_ops ops) hp, ← mem_subset (rep_ops ops) hp, h]
    rfl
  · have h0 : NFA.start pick (ops.foldl NFA.apply NFA.new) =
      NFA.subset pick (ops.foldl NFA.apply NFA.new) [] := rfl
    rw [h0]
    ext t
    rw [mem_subset (rep_ops ops) hp, mem_subset (rep_ops ops) hp]
    exact Set.ext_iff.mp h t

/-- **C76.** The empty word is never accepted after `to_dfa`, even if the start state is final. -/
theorem C76_empty_never {pick : Finset State → State} (hp : PickOk pick)
    {order : Finset Sym → List Sym} (ho : OrderOk order) (ops : List Op) :
    let d := (ops.foldl NFA.apply NFA.new).toDFA pick order
    d.isFinal (d.run d.startState []) = false := by
  have := (C76_to_dfa hp ho ops []).not.mpr (fun h => h.2 rfl)
  simpa using this

/-- **C76.** The conversion loses words: the automaton of `a*` accepts every word of `a`s, its
conversion accepts nothing. -/
theorem C76_to_dfa_loses_words {pick : Finset State → State} (hp : PickOk pick)
    {order : Finset Sym → List Sym} (ho : OrderOk order) (a : ℕ) :
    let ops := [Op.transition (0, 0) (.chr a) (0, 0), .final (0, 0)]
    let d := (ops.foldl NFA.apply NFA.new).toDFA pick order
    (∀ n, Accepts (transitionsOf ops) (finalsOf ops) (List.replicate n a)) ∧
    ∀ w, d.isFinal (d.run d.startState w) = false := by
  intro ops d
  have hpath : ∀ n, Path (transitionsOf ops) (0, 0) (List.replicate n a) (0, 0) := by
    intro n
    induction n with
    | zero => exact .nil _
    | succ n ih =>
      rw [List.replicate_succ']
      exact .chr a ih (by simp [transitionsOf, ops])
  have hinv : ∀ s w t, Path (transitionsOf ops) s w t → s = (0, 0) → t = (0, 0) ∧ ∀ c ∈ w, c = a := by
    intro s w t h hs
    subst hs
    induction h with
    | nil => simp
    | eps _ hu ih => simp [transitionsOf, ops] at hu
    | any c _ hu ih => simp [transitionsOf, ops] at hu
    | chr c _ hu ih =>
      simp only [transitionsOf, ops, List.filterMap_cons, List.filterMap_nil, List.mem_singleton,
        Prod.mk.injEq, Sym.chr.injEq] at hu
      refine ⟨hu.2.2, fun c' hc' => ?_⟩
      rcases List.mem_append.mp hc' with h | h
      · exact ih.2 c' h
      · rw [List.mem_singleton.mp h]; exact hu.2.1
  refine ⟨fun n => ⟨(0, 0), by simp [finalsOf, ops], hpath n⟩, fun w => ?_⟩
  have := (C76_to_dfa hp ho ops w).not.mpr (fun h => ?_)
  · simpa using this
  · obtain ⟨⟨t, -, ht⟩, hne⟩ := h
    apply hne
    obtain ⟨-, hw⟩ := hinv _ _ _ ht rfl
    have hw' : w = List.replicate w.length a := List.eq_replicate_of_mem hw
    ext u
    simp only [after, Set.mem_ofPred_eq]
    constructor
    · intro hu
      rw [(hinv _ _ _ hu rfl).1]
      exact .nil _
    · intro hu
      rw [(hinv _ _ _ hu rfl).1, hw']
      exact hpath _

/-- The automaton for "one `a`, then anything": the word "ab" is accepted. -/
example {pick : Finset State → State} (hp : PickOk pick)
    {order : Finset Sym → List Sym} (ho : OrderOk order) :
    let ops := [Op.transition (0, 0) (.chr 97) (1, 0), .transition (1, 0) .any (2, 0), .final (2, 0)]
    let d := (ops.foldl NFA.apply NFA.new).toDFA pick order
    d.isFinal (d.run d.startState [97, 98]) = true := by
  intro ops d
  have h1 : Path (transitionsOf ops) (0, 0) [97, 98] (2, 0) :=
    .any (w := [97]) (t := (1, 0)) 98 (.chr (w := []) 97 (.nil _) (by simp [transitionsOf, ops]))
      (by simp [transitionsOf, ops])
  refine (C76_to_dfa hp ho ops _).mpr ⟨⟨(2, 0), by simp [finalsOf, ops], h1⟩, fun h => ?_⟩
  have hm : ((2, 0) : State) ∈ after (transitionsOf ops) [] := by
    rw [← h]; exact h1
  have hn : ∀ s w t, Path (transitionsOf ops) s w t → s = (0, 0) → w = [] → t = (0, 0) := by
    intro s w t hpth hs hw
    induction hpth with
    | nil => exact hs
    | eps _ hu ih => simp [transitionsOf, ops] at hu
    | any c _ hu ih => simp at hw
    | chr c _ hu ih => simp at hw
  exact absurd (hn _ _ _ hm rfl rfl) (by decide)

/-- **C77.** After `levenshtein_automaton(word, k).to_dfa()` exactly the non-empty words that can be
made from `word` by at most `k` insertions, deletions and substitutions are accepted. -/
theorem C77_levenshtein_automaton {pick : Finset State → State} (hp : PickOk pick)
    {order : Finset Sym → List Sym} (ho : OrderOk order) (word : List ℕ) (k : ℤ) (w : List ℕ) :
    let d := (levenshteinAutomaton word k).toDFA pick order
    d.isFinal (d.run d.startState w) = true ↔
      w ≠ [] ∧ ∃ n : ℕ, (n : ℤ) ≤ k ∧ Steps OneEdit n word w := by
  obtain ⟨h1, h2⟩ := lev_searchable hp ho word k
  simp only
  rw [h1.start]
  refine (h2 w).trans (and_congr_right (fun _ => ⟨fun h => ?_, ?_⟩))
  · exact ⟨_, h, (Edit.unit_isLeast word w).1⟩
  · rintro ⟨n, hn, hs⟩
    have := Edit.unit_le_steps hs
    omega

example {pick : Finset State → State} (hp : PickOk pick)
    {order : Finset Sym → List Sym} (ho : OrderOk order) :
    let d := (levenshteinAutomaton [97, 98] 1).toDFA pick order
    d.isFinal (d.run d.startState [97, 99, 98]) = true ∧
    d.isFinal (d.run d.startState [98, 97]) = false := by
  refine ⟨(C77_levenshtein_automaton hp ho _ _ _).mpr ⟨by simp, 1, le_refl _,
    .step (.ins [97] 99 [98]) (.zero _)⟩, ?_⟩
  have := (C77_levenshtein_automaton hp ho [97, 98] 1 [98, 97]).not.mpr (fun ⟨_, n, hn, hs⟩ => by
    have h1 := Edit.unit_le_steps hs
    have h2 : dist unitCosts [97, 98] [98, 97] = 2 := by decide +kernel
    omega)
  simpa using this

/-- **C78.** `next_valid_string` on such an automaton terminates for every input without U+10FFFF
and returns the least accepted word, in the order of Python strings, that is not less than the
input — or `None` if there is none. -/
theorem C78_next_valid_string {pick : Finset State → State} (hp : PickOk pick)
    {order : Finset Sym → List Sym} (ho : OrderOk order) (word : List ℕ) (k : ℤ) (input : List ℕ)
    (hch : ∀ c ∈ input, c < 0x10FFFF) :
    let d := (levenshteinAutomaton word k).toDFA pick order
    let valid := {w : List ℕ | (w ≠ [] ∧ ∃ n : ℕ, (n : ℤ) ≤ k ∧ Steps OneEdit n word w) ∧ input ≤ w}
    ∃ r, (∃ N, ∀ fuel, N ≤ fuel → d.nextValidString fuel input = some (.ok r)) ∧
      ((∃ w, r = some w ∧ IsLeast valid w) ∨ (r = none ∧ valid = ∅)) := by
  intro d valid
  obtain ⟨h1, -⟩ := lev_searchable hp ho word k
  have hv : valid = {w | d.acc 0 w ∧ input ≤ w} := by
    ext w
    have := C77_levenshtein_automaton hp ho word k w
    simp only [h1.start] at this
    exact and_congr_left' this.symm
  rw [hv]
  rcases nextValidString_spec h1 input hch with ⟨w, hw, hN⟩ | ⟨hno, hN⟩
  · exact ⟨some w, hN, Or.inl ⟨w, rfl, hw⟩⟩
  · refine ⟨none, hN, Or.inr ⟨rfl, Set.eq_empty_iff_forall_notMem.mpr (fun w hw => ?_)⟩⟩
    exact hno w hw.2 hw.1

/-- The word "b" is the least one from "a" on that equals "b". -/
example {pick : Finset State → State} (hp : PickOk pick)
    {order : Finset Sym → List Sym} (ho : OrderOk order) :
    ∃ N, ∀ fuel, N ≤ fuel →
      ((levenshteinAutomaton [98] 0).toDFA pick order).nextValidString fuel [97] =
        some (.ok (some [98])) := by
  obtain ⟨r, hr, h⟩ := C78_next_valid_string hp ho [98] 0 [97] (by decide)
  have hmem : [98] ∈ {w : List ℕ | (w ≠ [] ∧ ∃ n : ℕ, (n : ℤ) ≤ 0 ∧ Steps OneEdit n [98] w) ∧
      [97] ≤ w} := ⟨⟨by simp, 0, le_refl _, .zero _⟩, by decide⟩
  rcases h with ⟨w, rfl, hw⟩ | ⟨-, h⟩
  · obtain ⟨⟨-, n, hn, hs⟩, -⟩ := hw.1
    have hn0 : n = 0 := by omega
    subst hn0
    cases hs
    exact hr
  · rw [h] at hmem
    exact absurd hmem (Set.notMem_empty _)

/-- **C78.** The restriction is necessary: an input that begins with U+10FFFF raises `ValueError`
when only the word itself is to be found. -/
theorem C78_last_code_point_raises {pick : Finset State → State} (hp : PickOk pick)
    {order : Finset Sym → List Sym} (ho : OrderOk order) (word rest : List ℕ)
    (hw : word.head? ≠ some 0x10FFFF) (fuel : ℕ) :
    ((levenshteinAutomaton word 0).toDFA pick order).nextValidString (fuel + 1) (0x10FFFF :: rest) =
      some (.error .valueError) := by
  obtain ⟨ids, hd⟩ := toDFA_ok hp ho (levenshteinAutomaton word 0)
  have hrep := rep_automaton word 0
  have hno : ((levenshteinAutomaton word 0).toDFA pick order).run 0 [0x10FFFF] = none := by
    apply (run_eq hrep hp hd _).1
    rw [Finset.eq_empty_iff_forall_notMem]
    intro t ht
    have h := path_dist ((mem_subset hrep hp _ _).mp ht)
    have h0 : dist unitCosts (word.take t.1) [0x10FFFF] = 0 := by
      have := h.2.2 (le_refl _)
      omega
    rw [Edit.unit_eq_zero] at h0
    apply hw
    cases word with
    | nil => simp at h0
    | cons c cs =>
      cases ht1 : t.1 with
      | zero => rw [ht1] at h0; simp at h0
      | succ i =>
        rw [ht1] at h0
        simp only [List.take_succ_cons, List.cons.injEq] at h0
        simp [h0.1]
  have hno' : ((levenshteinAutomaton word 0).toDFA pick order).nextState 0 0x10FFFF = none := by
    simp only [DFA.run] at hno
    cases hn : ((levenshteinAutomaton word 0).toDFA pick order).nextState 0 0x10FFFF with
    | none => rfl
    | some q => rw [hn] at hno; simp at hno
  have hed : ∀ (d : DFA), d.findNextEdge (some 0) (some 0x10FFFF) = .error .valueError := by
    intro d
    simp [DFA.findNextEdge, nextAllowed, pyChr]
  simp only [DFA.nextValidString, hd.startState, DFA.eval, hno', DFA.isFinal, Bool.false_eq_true,
    if_false, DFA.search, hed]

/-- **C79.** `find_all_matches(word, k, Matcher(entries))` for a sorted list of words without
U+10FFFF: the iteration ends without an exception, yields its words in strictly increasing order,
and yields exactly the non-empty entries within `k` edits of `word`. -/
theorem C79_find_all_matches {pick : Finset State → State} (hp : PickOk pick)
    {order : Finset Sym → List Sym} (ho : OrderOk order) (word : List ℕ) (k : ℤ)
    (entries : List (List ℕ)) (hs : entries.Pairwise (· ≤ ·))
    (hch : ∀ u ∈ entries, ∀ c ∈ u, c < 0x10FFFF) :
    ∃ out, (∃ N, ∀ fuel, N ≤ fuel → findAllMatches pick order fuel word k entries = some (.ok out)) ∧
      out.Pairwise (· < ·) ∧
      ∀ w, w ∈ out ↔ w ∈ entries ∧ w ≠ [] ∧ ∃ n : ℕ, (n : ℤ) ≤ k ∧ Steps OneEdit n word w := by
  obtain ⟨h1, h2⟩ := lev_searchable hp ho word k
  have hacc : ∀ w, ((levenshteinAutomaton word k).toDFA pick order).acc 0 w ↔
      w ≠ [] ∧ ∃ n : ℕ, (n : ℤ) ≤ k ∧ Steps OneEdit n word w := by
    intro w
    have := C77_levenshtein_automaton hp ho word k w
    simp only [h1.start] at this
    exact this
  unfold findAllMatches
  generalize (levenshteinAutomaton word k).toDFA pick order = d at h1 h2 hacc
  simp only
  obtain ⟨N, hN⟩ := next_uniform h1 ([0] :: (entries ++ entries.map (· ++ [0]))) (by
    intro u hu c hc
    simp only [List.mem_cons, List.mem_append, List.mem_map] at hu
    rcases hu with rfl | hu | ⟨v, hv, rfl⟩
    · simp at hc; omega
    · exact hch u hu c hc
    · rcases List.mem_append.mp hc with h | h
      · exact hch v hv c h
      · simp at h; omega)
  have key : ∀ fuel, N + (2 * entries.length + 3) ≤ fuel → ∃ out,
      (match d.nextValidString fuel [0] with
        | none => none
        | some (.error e) => some (.error e)
        | some (.ok m) => matchLoop d fuel entries fuel 0 m) = some (.ok out) ∧
      out.Pairwise (· < ·) ∧
      ∀ w, w ∈ out ↔ w ∈ entries ∧ w ≠ [] ∧ ∃ n : ℕ, (n : ℤ) ≤ k ∧ Steps OneEdit n word w := by
    intro fuel hf
    obtain ⟨r, hr, hrv⟩ := hN [0] (by simp) fuel (by omega)
    rw [hrv]
    simp only
    obtain ⟨out, ho1, ho2, ho3⟩ := matchLoop_spec (d := d) hs (N := N) (fuel := fuel)
      (fun u hu => hN u (List.mem_cons_of_mem _ hu)) (by omega)
      (fun h => ((hacc []).mp h).1 rfl) fuel 0 r (by
        rintro w rfl
        rcases hr with ⟨w', hw', h⟩ | ⟨-, h⟩
        · cases h
          refine ⟨hw'.1.1, Nat.zero_le _, fun i _ h => by omega, ?_⟩
          have := List.length_filter_le (fun u => decide (w ≤ u)) entries
          split <;> omega
        · cases h) (by omega)
    refine ⟨out, ho1, ho2, fun w => ?_⟩
    rw [ho3, hacc]
    refine and_congr_right (fun _ => ⟨fun h => h.1, fun h => ⟨h, ?_⟩⟩)
    have hle : [0] ≤ w := by
      have : ([] : List ℕ) ++ [0] ≤ w := snoc_zero_le (by
        cases w with
        | nil => exact absurd rfl h.1
        | cons c w => exact List.nil_lt_cons _ _)
      exact this
    rcases hr with ⟨v, hv, rfl⟩ | ⟨hno, -⟩
    · exact ⟨v, rfl, hv.2 ⟨(hacc w).mpr h, hle⟩⟩
    · exact absurd ((hacc w).mpr h) (hno w hle)
  obtain ⟨out, -, ho2, ho3⟩ := key _ (le_refl _)
  refine ⟨out, ⟨N + (2 * entries.length + 3), fun fuel hf => ?_⟩, ho2, ho3⟩
  obtain ⟨out', ho1', ho2', ho3'⟩ := key fuel hf
  have : out' = out := by
    refine List.Perm.eq_of_pairwise (fun a b _ _ h h' => absurd h' (lt_asymm h)) ho2' ho2
      ((List.perm_ext_iff_of_nodup ?_ ?_).mpr (fun w => by rw [ho3, ho3']))
    · exact ho2'.imp (fun h => ne_of_lt h)
    · exact ho2.imp (fun h => ne_of_lt h)
  rw [this] at ho1'
  exact ho1'

/-- "ab" within one edit among "a", "abc", "b", "bcd". -/
example {pick : Finset State → State} (hp : PickOk pick)
    {order : Finset Sym → List Sym} (ho : OrderOk order) :
    ∃ out, (∃ N, ∀ fuel, N ≤ fuel → findAllMatches pick order fuel [97, 98] 1
        [[97], [97, 98, 99], [98], [98, 99, 100]] = some (.ok out)) ∧
      [97, 98, 99] ∈ out ∧ [98, 99, 100] ∉ out := by
  obtain ⟨out, h1, -, h2⟩ := C79_find_all_matches hp ho [97, 98] 1
    [[97], [97, 98, 99], [98], [98, 99, 100]] (by decide) (by decide)
  refine ⟨out, h1, (h2 _).mpr ⟨by simp, by simp, 1, le_refl _, .step (.ins [97, 98] 99 []) (.zero _)⟩, ?_⟩
  intro h
  obtain ⟨-, -, n, hn, hst⟩ := (h2 _).mp h
  have h1 := Edit.unit_le_steps hst
  have h3 : dist unitCosts [97, 98] [98, 99, 100] = 3 := by decide +kernel
  omega

/-- **C79.** An empty entry is never yielded, however large `k` is. -/
theorem C79_empty_entry_lost {pick : Finset State → State} (hp : PickOk pick)
    {order : Finset Sym → List Sym} (ho : OrderOk order) (word : List ℕ) :
    ∃ N, ∀ fuel, N ≤ fuel → findAllMatches pick order fuel word word.length [[]] = some (.ok []) := by
  obtain ⟨out, h1, -, h2⟩ := C79_find_all_matches hp ho word word.length [[]] (by simp) (by simp)
  have : out = [] := by
    rw [List.eq_nil_iff_forall_not_mem]
    intro w hw
    obtain ⟨h, h', -⟩ := (h2 w).mp hw
    exact h' (by simpa using h)
  rw [this] at h1
  exact h1

end Auto
end Verif
