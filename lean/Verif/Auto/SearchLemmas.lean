import Verif.Auto.LevLemmas
import Mathlib.Order.Bounds.Basic

/-!
# Lemmas about `next_valid_string`
-/

namespace Verif
namespace Auto

open AutoSpec EditSpec Edit

/-- What the search relies on: no long words can be read, the start state is not entered again, and
there are no dead ends. -/
structure Searchable (d : DFA) : Prop where
  start : d.startState = 0
  bound : ∃ B, ∀ w q, d.run 0 w = some q → w.length ≤ B
  nozero : ∀ w, w ≠ [] → d.run 0 w ≠ some 0
  live : ∀ w q, w ≠ [] → d.run 0 w = some q → d.isFinal (some q) = false →
    ∃ c, (d.nextState q c).isSome

theorem min?_spec' {l : List ℕ} :
    (l.min? = none ∧ l = []) ∨ ∃ m, l.min? = some m ∧ m ∈ l ∧ ∀ x ∈ l, m ≤ x := by
  cases hm : l.min? with
  | none => exact Or.inl ⟨rfl, List.min?_eq_none_iff.mp hm⟩
  | some m => exact Or.inr ⟨m, rfl, (List.min?_eq_some_iff.mp hm).1, (List.min?_eq_some_iff.mp hm).2⟩

theorem nextState_isSome {d : DFA} {s c : ℕ} : (d.nextState s c).isSome ↔
    c ∈ Dict.keys ((Dict.get? d.transitions s).getD []) ∨ (Dict.get? d.defaults s).isSome := by
  unfold DFA.nextState
  rw [Dict.mem_keys_iff]
  cases Dict.get? ((Dict.get? d.transitions s).getD []) c <;> simp

/-- `find_next_edge` finds the least label from the given one on. -/
theorem findNextEdge_spec {d : DFA} {s n : ℕ} {t : Option ℕ}
    (ht : nextAllowed t = .ok n) :
    (d.findNextEdge (some s) t = .ok none ∧ ∀ c, n ≤ c → d.nextState s c = none) ∨
    ∃ e, d.findNextEdge (some s) t = .ok (some e) ∧ n ≤ e ∧ (d.nextState s e).isSome ∧
      ∀ c, n ≤ c → (d.nextState s c).isSome → e ≤ c := by
  unfold DFA.findNextEdge
  rw [ht]
  simp only [Option.bind_some]
  by_cases h : Dict.has ((Dict.get? d.transitions s).getD []) n = true ∨ (Dict.get? d.defaults s).isSome = true
  · rw [if_pos h]
    refine Or.inr ⟨n, rfl, le_refl _, ?_, fun c hc _ => hc⟩
    rw [nextState_isSome]
    rcases h with h | h
    · left
      rw [Dict.mem_keys_iff]
      exact Option.isSome_iff_exists.mp h
    · exact Or.inr h
  · rw [if_neg h]
    push Not at h
    have hd : (Dict.get? d.defaults s).isSome = false := by simpa using h.2
    have key : ∀ c, (d.nextState s c).isSome ↔ c ∈ Dict.keys ((Dict.get? d.transitions s).getD []) := by
      intro c; rw [nextState_isSome, hd]; simp
    rcases min?_spec' (l := (Dict.keys ((Dict.get? d.transitions s).getD [])).filter (fun l => n ≤ l))
      with ⟨h1, h2⟩ | ⟨m, h1, h2, h3⟩
    · refine Or.inl ⟨by rw [h1], fun c hc => ?_⟩
      rw [← Option.not_isSome_iff_eq_none, key]
      intro hm
      have : c ∈ (Dict.keys ((Dict.get? d.transitions s).getD [])).filter (fun l => n ≤ l) := by
        simp [hm, hc]
      rw [h2] at this
      simp at this
    · simp only [List.mem_filter, decide_eq_true_eq] at h2 h3
      refine Or.inr ⟨m, by rw [h1], h2.2, (key m).mpr h2.1, fun c hc hs => h3 c ⟨(key c).mp hs, hc⟩⟩

/-- Acceptance from a state. -/
def DFA.acc (d : DFA) (q : ℕ) (w : List ℕ) : Prop := d.isFinal (d.run q w) = true

theorem acc_cons {d : DFA} {q c : ℕ} {w : List ℕ} :
    d.acc q (c :: w) ↔ ∃ t, d.nextState q c = some t ∧ d.acc t w := by
  unfold DFA.acc
  simp only [DFA.run]
  cases d.nextState q c with
  | none => simp [DFA.isFinal]
  | some t => simp

theorem cons_le_of_lt {a b : ℕ} {u v : List ℕ} (h : a < b) : a :: u ≤ b :: v :=
  le_of_lt (List.cons_lt_cons_iff.mpr (Or.inl h))

theorem cons_le_same {a : ℕ} {u v : List ℕ} (h : u ≤ v) : a :: u ≤ a :: v := by
  rcases eq_or_lt_of_le h with rfl | h
  · exact le_refl _
  · exact le_of_lt (List.cons_lt_cons_iff.mpr (Or.inr ⟨rfl, h⟩))

theorem nil_le' (u : List ℕ) : ([] : List ℕ) ≤ u := by
  cases u with
  | nil => exact le_refl _
  | cons c u => exact le_of_lt (List.nil_lt_cons c u)

/-- An entry of the stack is followed by the least accepted continuation. -/
theorem search_entry {d : DFA} (hd : Searchable d) (stack : List Entry) :
    ∀ (m : ℕ) (path : List ℕ) (s n : ℕ) (t : Option ℕ),
      (∀ w q, d.run 0 (path ++ w) = some q → w.length ≤ m) → d.run 0 path = some s →
      nextAllowed t = .ok n →
      (∃ w, IsLeast {w | d.acc s w ∧ ∃ c u, w = c :: u ∧ n ≤ c} w ∧
        ∃ N, ∀ fuel, N ≤ fuel → d.search fuel ((path, some s, t) :: stack) = some (.ok (some (path ++ w)))) ∨
      ((∀ c, n ≤ c → d.nextState s c = none) ∧
        ∀ fuel, d.search (fuel + 1) ((path, some s, t) :: stack) = d.search fuel stack) := by
  intro m
  induction m with
  | zero =>
    intro path s n t hb hr ht
    have hnone : ∀ c, d.nextState s c = none := by
      intro c
      cases hc : d.nextState s c with
      | none => rfl
      | some q =>
        have := hb [c] q (by rw [run_snoc, hr]; exact hc)
        simp at this
    rcases findNextEdge_spec (d := d) (s := s) ht with ⟨h1, h2⟩ | ⟨e, h1, h2, h3, h4⟩
    · exact Or.inr ⟨h2, fun fuel => by simp only [DFA.search, h1]⟩
    · rw [hnone e] at h3; simp at h3
  | succ m ih =>
    intro path s n t hb hr ht
    rcases findNextEdge_spec (d := d) (s := s) ht with ⟨h1, h2⟩ | ⟨e, h1, h2, h3, h4⟩
    · exact Or.inr ⟨h2, fun fuel => by simp only [DFA.search, h1]⟩
    · left
      obtain ⟨q, hq⟩ := Option.isSome_iff_exists.mp h3
      have hrq : d.run 0 (path ++ [e]) = some q := by rw [run_snoc, hr]; exact hq
      by_cases hf : d.isFinal (some q) = true
      · refine ⟨[e], ⟨⟨acc_cons.mpr ⟨q, hq, hf⟩, e, [], rfl, h2⟩, ?_⟩, 1, ?_⟩
        · rintro w ⟨ha, c, u, rfl, hc⟩
          obtain ⟨t', ht', -⟩ := acc_cons.mp ha
          have := h4 c hc (by rw [ht']; rfl)
          rcases Nat.lt_or_eq_of_le this with h | h
          · exact cons_le_of_lt h
          · subst h; exact cons_le_same (nil_le' _)
        · intro fuel hfuel
          obtain ⟨fuel, rfl⟩ : ∃ f, fuel = f + 1 := ⟨fuel - 1, by omega⟩
          simp only [DFA.search, h1, Option.bind_some, hq, hf, if_true]
      · have hf' : d.isFinal (some q) = false := by simpa using hf
        have hih := ih (path ++ [e]) q 0 none (fun w q' hw => by
          have := hb (e :: w) q' (by rw [← hw]; simp)
          simpa using this) hrq rfl
        rcases hih with ⟨w, hw, N, hN⟩ | ⟨hno, -⟩
        · refine ⟨e :: w, ⟨⟨acc_cons.mpr ⟨q, hq, hw.1.1⟩, e, w, rfl, h2⟩, ?_⟩, N + 1, ?_⟩
          · rintro w' ⟨ha, c, u, rfl, hc⟩
            obtain ⟨t', ht', ha'⟩ := acc_cons.mp ha
            have := h4 c hc (by rw [ht']; rfl)
            rcases Nat.lt_or_eq_of_le this with h | h
            · exact cons_le_of_lt h
            · subst h
              rw [hq, Option.some.injEq] at ht'
              subst ht'
              refine cons_le_same (hw.2 ⟨ha', ?_⟩)
              cases u with
              | nil => exact absurd ha' (by simpa [DFA.acc, DFA.run] using hf')
              | cons c' u => exact ⟨c', u, rfl, Nat.zero_le _⟩
          · intro fuel hfuel
            obtain ⟨fuel, rfl⟩ : ∃ f, fuel = f + 1 := ⟨fuel - 1, by omega⟩
            simp only [DFA.search, h1, Option.bind_some, hq, hf, if_false, Bool.false_eq_true]
            rw [hN fuel (by omega)]
            simp
        · obtain ⟨c, hc⟩ := hd.live _ q (by simp) hrq hf'
          rw [hno c (Nat.zero_le _)] at hc
          simp at hc

theorem pyChr_ok {c : ℕ} (h : c < 0x10FFFF) : pyChr (c + 1) = .ok (c + 1) := by
  unfold pyChr
  rw [if_pos (by omega)]

/-- The search from the stack left by `eval` finds the least accepted word beyond the input, or
returns to the rest of the stack. -/
theorem search_eval {d : DFA} (hd : Searchable d) (input : List ℕ) :
    ∀ (rest : List ℕ) (idx s : ℕ) (stack : List Entry), input = input.take idx ++ rest →
      idx ≤ input.length →
      (∀ c ∈ rest, c < 0x10FFFF) → d.run 0 (input.take idx) = some s →
      (d.eval input rest idx s stack).1 = d.run 0 input ∧
      ((∃ w, IsLeast {w | d.acc s w ∧ rest < w} w ∧
        ∃ N, ∀ fuel, N ≤ fuel → d.search fuel (d.eval input rest idx s stack).2 =
          some (.ok (some (input.take idx ++ w)))) ∨
      ((∀ w, rest < w → ¬ d.acc s w) ∧
        ∃ N, ∀ fuel, d.search (fuel + N) (d.eval input rest idx s stack).2 = d.search fuel stack)) := by
  obtain ⟨B, hB⟩ := hd.bound
  intro rest
  induction rest with
  | nil =>
    intro idx s stack hin _ _ hr
    simp only [DFA.eval]
    refine ⟨by rw [List.append_nil] at hin; rw [← hin] at hr; exact hr.symm, ?_⟩
    rcases search_entry hd stack B (input.take idx) s 0 none (fun w q hw => by
      have := hB _ _ hw; simp only [List.length_append] at this; omega) hr rfl with
      ⟨w, hw, hN⟩ | ⟨hno, hN⟩
    · refine Or.inl ⟨w, ?_, hN⟩
      convert hw using 1
      ext u
      cases u with
      | nil => simp
      | cons c u => simp [List.nil_lt_cons]
    · refine Or.inr ⟨fun w hw ha => ?_, 1, hN⟩
      cases w with
      | nil => exact absurd hw (lt_irrefl _)
      | cons c w =>
        obtain ⟨t, ht, -⟩ := acc_cons.mp ha
        rw [hno c (Nat.zero_le _)] at ht
        cases ht
  | cons c cs ih =>
    intro idx s stack hin hidx hch hr
    have hlen : idx < input.length := by
      have := congrArg List.length hin
      simp only [List.length_append, List.length_take, List.length_cons] at this
      omega
    have htake : input.take (idx + 1) = input.take idx ++ [c] := by
      have hc : input[idx]? = some c := by
        rw [hin, List.getElem?_append_right (by simp)]
        simp [Nat.min_eq_left hidx]
      exact take_succ' hc
    have hent := search_entry hd stack B (input.take idx) s (c + 1) (some c) (fun w q hw => by
      have := hB _ _ hw; simp only [List.length_append] at this; omega) hr
      (pyChr_ok (hch c (by simp)))
    simp only [DFA.eval]
    cases hn : d.nextState s c with
    | none =>
      simp only
      refine ⟨?_, ?_⟩
      · rw [hin, run_append, hr]
        simp [DFA.run, hn]
      · rcases hent with ⟨w, hw, hN⟩ | ⟨hno, hN⟩
        · refine Or.inl ⟨w, ?_, hN⟩
          convert hw using 1
          ext u
          simp only [Set.mem_ofPred_eq]
          refine and_congr_right (fun ha => ?_)
          cases u with
          | nil => simp
          | cons c' u =>
            have hne : c' ≠ c := by
              rintro rfl
              obtain ⟨t, ht, -⟩ := acc_cons.mp ha
              rw [hn] at ht; cases ht
            rw [List.cons_lt_cons_iff]
            constructor
            · rintro (h | ⟨h, -⟩)
              · exact ⟨c', u, rfl, h⟩
              · exact absurd h.symm hne
            · rintro ⟨c'', u', h, h'⟩
              cases h
              exact Or.inl h'
        · refine Or.inr ⟨fun w hw ha => ?_, 1, hN⟩
          cases w with
          | nil => simp at hw
          | cons c' w =>
            obtain ⟨t, ht, -⟩ := acc_cons.mp ha
            rcases List.cons_lt_cons_iff.mp hw with h | ⟨rfl, -⟩
            · rw [hno c' h] at ht; cases ht
            · rw [hn] at ht; cases ht
    | some q =>
      have hrq : d.run 0 (input.take (idx + 1)) = some q := by
        rw [htake, run_snoc, hr]; exact hn
      cases q with
      | zero => exact absurd hrq (hd.nozero _ (by rw [htake]; simp))
      | succ q =>
        simp only
        have hin' : input = input.take (idx + 1) ++ cs := by
          rw [htake, List.append_assoc]; exact hin
        obtain ⟨h1, h2⟩ := ih (idx + 1) (q + 1) ((input.take idx, some s, some c) :: stack) hin' hlen
          (fun x hx => hch x (List.mem_cons_of_mem _ hx)) hrq
        refine ⟨h1, ?_⟩
        rcases h2 with ⟨w, hw, N, hN⟩ | ⟨hno, N, hN⟩
        · refine Or.inl ⟨c :: w, ⟨⟨acc_cons.mpr ⟨_, hn, hw.1.1⟩,
            List.cons_lt_cons_iff.mpr (Or.inr ⟨rfl, hw.1.2⟩)⟩, ?_⟩, N, fun fuel hf => ?_⟩
          · rintro u ⟨ha, hu⟩
            cases u with
            | nil => simp at hu
            | cons c' u =>
              rcases List.cons_lt_cons_iff.mp hu with h | ⟨rfl, h⟩
              · exact cons_le_of_lt h
              · obtain ⟨t, ht, ha'⟩ := acc_cons.mp ha
                rw [hn, Option.some.injEq] at ht
                subst ht
                exact cons_le_same (hw.2 ⟨ha', h⟩)
          · rw [hN fuel hf, htake]; simp
        · rcases hent with ⟨w, hw, M, hM⟩ | ⟨hno', hM⟩
          · refine Or.inl ⟨w, ⟨⟨hw.1.1, ?_⟩, ?_⟩, M + N, fun fuel hf => ?_⟩
            · obtain ⟨c', u, rfl, h⟩ := hw.1.2
              exact List.cons_lt_cons_iff.mpr (Or.inl h)
            · rintro u ⟨ha, hu⟩
              refine hw.2 ⟨ha, ?_⟩
              cases u with
              | nil => simp at hu
              | cons c' u =>
                rcases List.cons_lt_cons_iff.mp hu with h | ⟨rfl, h⟩
                · exact ⟨c', u, rfl, h⟩
                · obtain ⟨t, ht, ha'⟩ := acc_cons.mp ha
                  rw [hn, Option.some.injEq] at ht
                  subst ht
                  exact absurd ha' (hno u h)
            · obtain ⟨f, rfl⟩ : ∃ f, fuel = f + N := ⟨fuel - N, by omega⟩
              rw [hN, hM f (by omega)]
          · refine Or.inr ⟨fun w hw ha => ?_, 1 + N, fun fuel => ?_⟩
            · cases w with
              | nil => simp at hw
              | cons c' w =>
                obtain ⟨t, ht, ha'⟩ := acc_cons.mp ha
                rcases List.cons_lt_cons_iff.mp hw with h | ⟨rfl, h⟩
                · rw [hno' c' h] at ht; cases ht
                · rw [hn, Option.some.injEq] at ht
                  subst ht
                  exact hno w h ha'
            · rw [← Nat.add_assoc, hN, hM]

/-- `next_valid_string` returns the least accepted word from the input on. -/
theorem nextValidString_spec {d : DFA} (hd : Searchable d) (input : List ℕ)
    (hch : ∀ c ∈ input, c < 0x10FFFF) :
    (∃ w, IsLeast {w | d.acc 0 w ∧ input ≤ w} w ∧
      ∃ N, ∀ fuel, N ≤ fuel → d.nextValidString fuel input = some (.ok (some w))) ∨
    ((∀ w, input ≤ w → ¬ d.acc 0 w) ∧
      ∃ N, ∀ fuel, N ≤ fuel → d.nextValidString fuel input = some (.ok none)) := by
  obtain ⟨h1, h2⟩ := search_eval hd input input 0 0 [] (by simp) (Nat.zero_le _) hch rfl
  unfold DFA.nextValidString
  rw [hd.start]
  simp only [h1]
  by_cases hf : d.isFinal (d.run 0 input) = true
  · exact Or.inl ⟨input, ⟨⟨hf, le_refl _⟩, fun w hw => hw.2⟩, 0, fun _ _ => by rw [if_pos hf]⟩
  · simp only [if_neg hf]
    have hlt : ∀ w, input ≤ w → d.acc 0 w → input < w := by
      intro w hw ha
      rcases eq_or_lt_of_le hw with rfl | h
      · exact absurd ha hf
      · exact h
    rcases h2 with ⟨w, hw, N, hN⟩ | ⟨hno, N, hN⟩
    · exact Or.inl ⟨w, ⟨⟨hw.1.1, le_of_lt hw.1.2⟩, fun u hu => hw.2 ⟨hu.1, hlt u hu.2 hu.1⟩⟩, N,
        fun fuel hfu => by rw [hN fuel hfu]; simp⟩
    · refine Or.inr ⟨fun w hw ha => hno w (hlt w hw ha) ha, N + 1, fun fuel hfu => ?_⟩
      obtain ⟨f, rfl⟩ : ∃ f, fuel = f + 1 + N := ⟨fuel - 1 - N, by omega⟩
      rw [hN]
      rfl

/-! ### The automaton of a word can be searched -/

theorem path_length {word : List ℕ} {k : ℤ} {w : List ℕ} {t : State}
    (h : Path (autoTs word k) (0, 0) w t) : w.length ≤ t.1 + t.2 := by
  induction h with
  | nil => simp
  | @eps w t u _ hu ih =>
    obtain ⟨i, d⟩ := t
    obtain ⟨-, h⟩ := mem_autoTs.mp hu
    rcases h with ⟨c, hc, h, -⟩ | ⟨_, _, h, _⟩ | ⟨_, _, h, _⟩ | ⟨hi, hk, -, rfl⟩
    · cases h
    · cases h
    · cases h
    · simp only at ih ⊢; omega
  | @any w t u c _ hu ih =>
    obtain ⟨i, d⟩ := t
    obtain ⟨-, h⟩ := mem_autoTs.mp hu
    rw [List.length_append, List.length_singleton]
    rcases h with ⟨c, hc, h, -⟩ | ⟨hi, hk, -, rfl⟩ | ⟨hi, hk, -, rfl⟩ | ⟨_, _, h, _⟩
    · cases h
    · simp only at ih ⊢; omega
    · simp only at ih ⊢; omega
    · cases h
  | @chr w t u c _ hu ih =>
    obtain ⟨i, d⟩ := t
    obtain ⟨-, h⟩ := mem_autoTs.mp hu
    rw [List.length_append, List.length_singleton]
    rcases h with ⟨c', hc, h, rfl⟩ | ⟨_, _, h, _⟩ | ⟨_, _, h, _⟩ | ⟨_, _, h, _⟩
    · simp only at ih ⊢; omega
    · cases h
    · cases h
    · cases h

theorem path_neg {word : List ℕ} {k : ℤ} (hk : k < 0) {w : List ℕ} {t : State}
    (h : Path (autoTs word k) (0, 0) w t) : w = [] := by
  have key : ∀ (t : State) x u, (t, x, u) ∈ autoTs word k → False := by
    rintro ⟨i, d⟩ x u h
    have := (mem_autoTs.mp h).1
    omega
  cases h with
  | nil => rfl
  | eps _ hu => exact absurd hu (key _ _ _)
  | any c _ hu => exact absurd hu (key _ _ _)
  | chr c _ hu => exact absurd hu (key _ _ _)

/-- The result of `to_dfa` for the automaton of a word. -/
theorem lev_searchable {pick : Finset State → State} (hp : PickOk pick)
    {order : Finset Sym → List Sym} (ho : OrderOk order) (word : List ℕ) (k : ℤ) :
    Searchable ((levenshteinAutomaton word k).toDFA pick order) ∧
    ∀ w, ((levenshteinAutomaton word k).toDFA pick order).acc 0 w ↔
      w ≠ [] ∧ ((dist unitCosts word w : ℕ) : ℤ) ≤ k := by
  obtain ⟨ids, hd⟩ := toDFA_ok hp ho (levenshteinAutomaton word k)
  have hrep := rep_automaton word k
  generalize (levenshteinAutomaton word k).toDFA pick order = d at hd
  generalize levenshteinAutomaton word k = nfa at hd hrep
  -- a state reached by reading a word
  have hreach : ∀ w q, d.run 0 w = some q → ∃ t, Path (autoTs word k) (0, 0) w t := by
    intro w q hq
    by_cases he : nfa.subset pick w = ∅
    · rw [(run_eq hrep hp hd w).1 he] at hq; cases hq
    · obtain ⟨t, ht⟩ := Finset.nonempty_iff_ne_empty.mpr he
      exact ⟨t, (mem_subset hrep hp _ _).mp ht⟩
  have hstart : ∀ w, nfa.subset pick w = nfa.start pick → w = [] := by
    intro w hw
    have h0 : ((0, 0) : State) ∈ nfa.subset pick w := by
      rw [hw]
      exact (mem_subset hrep hp [] _).mpr (.nil _)
    have := path_length ((mem_subset hrep hp _ _).mp h0)
    simpa using this
  have hacc : ∀ w, d.acc 0 w ↔ w ≠ [] ∧ ((dist unitCosts word w : ℕ) : ℤ) ≤ k := by
    intro w
    unfold DFA.acc
    rw [isFinal_run hrep hp hd, accepts_iff, and_comm]
    refine and_congr_left (fun _ => not_congr ⟨hstart w, ?_⟩)
    rintro rfl
    rfl
  refine ⟨⟨hd.startState, ⟨word.length + k.toNat, ?_⟩, ?_, ?_⟩, hacc⟩
  · intro w q hq
    obtain ⟨t, ht⟩ := hreach w q hq
    by_cases hk : 0 ≤ k
    · have h1 := path_dist ht
      have h2 := path_length ht
      have := h1.2.2 hk
      omega
    · have := path_neg (by omega) ht
      subst this
      simp
  · intro w hw h0
    by_cases he : nfa.subset pick w = ∅
    · rw [(run_eq hrep hp hd w).1 he] at h0; cases h0
    · obtain ⟨j, hj, hr⟩ := (run_eq hrep hp hd w).2 he
      rw [h0, Option.some.injEq] at hr
      subst hr
      exact hw (hstart w (hd.inj _ _ _ hj hd.start))
  · intro w q hw hq hf
    obtain ⟨⟨i, e⟩, ht⟩ := hreach w q hq
    have hk : 0 ≤ k := by
      by_contra hk
      exact hw (path_neg (by omega) ht)
    obtain ⟨h1, h2, h3⟩ := path_dist ht
    have he : (e : ℤ) ≤ k := h3 hk
    by_cases hi : i < word.length
    · refine ⟨word[i], ?_⟩
      have hp' : Path (autoTs word k) (0, 0) (w ++ [word[i]]) (i + 1, e) :=
        .chr _ ht (mem_autoTs.mpr ⟨he, Or.inl ⟨_, List.getElem?_eq_getElem hi, rfl, rfl⟩⟩)
      have hne : nfa.subset pick (w ++ [word[i]]) ≠ ∅ :=
        Finset.nonempty_iff_ne_empty.mp ⟨_, (mem_subset hrep hp _ _).mpr hp'⟩
      obtain ⟨j, -, hj⟩ := (run_eq hrep hp hd _).2 hne
      rw [run_snoc, hq] at hj
      simp only [Option.bind_some] at hj
      rw [hj]; rfl
    · have : i = word.length := by simp only at h1; omega
      subst this
      have : d.acc 0 w := (hacc w).mpr ⟨hw, by
        simp only [List.take_length] at h2
        omega⟩
      unfold DFA.acc at this
      rw [hq, hf] at this
      cases this

end Auto
end Verif
