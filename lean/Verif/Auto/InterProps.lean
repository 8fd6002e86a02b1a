import Verif.Auto.InterModel
import Mathlib.Data.Finset.Lattice.Fold

/-!
# C251: what `intersect` does
-/

namespace Verif

namespace AutoSpec

/-- A deterministic automaton: states, some of which count as false in Python. -/
structure Machine (σ : Type) where
  start : σ
  edges : σ → List ℕ
  next : σ → ℕ → σ
  final : σ → Bool
  truthy : σ → Bool

/-- The state after reading a word. -/
def Machine.read {σ : Type} (M : Machine σ) (w : List ℕ) : σ := w.foldl M.next M.start

/-- The automaton accepts a word. -/
def Machine.Accepts {σ : Type} (M : Machine σ) (w : List ℕ) : Prop := M.final (M.read w) = true

/-- The automaton has an edge for every character of the word, and no state on the way (after the first
character) counts as false. -/
def Machine.Walks {σ : Type} (M : Machine σ) (w : List ℕ) : Prop :=
  ∀ u c v, w = u ++ c :: v → c ∈ M.edges (M.read u) ∧ M.truthy (M.read (u ++ [c])) = true

/-- No way leads on from a state that counts as false. -/
def Machine.DeadEnds {σ : Type} (M : Machine σ) : Prop :=
  ∀ x c, M.truthy x = false → M.truthy (M.next x c) = false

end AutoSpec

namespace Auto

open AutoSpec

/-- A machine as an argument of `intersect` (lines 264–278) that has all the attributes. -/
def ofMachine {σ : Type} (M : Machine σ) : Duck σ :=
  ⟨some M.start, some M.edges, some M.next, some M.final, M.truthy⟩

variable {σ τ : Type} {M : Machine σ} {N : Machine τ}

theorem interEdge_machine (l : InterLocals σ τ) (e : ℕ) :
    interEdge (ofMachine M) (ofMachine N) l e =
      (if M.truthy (M.next l.x e) = true ∧ N.truthy (N.next l.y e) = true then
        ⟨l.s ++ [e], M.next l.x e, N.next l.y e,
          (l.s ++ [e], M.next l.x e, N.next l.y e) :: l.stack,
          if M.final (M.next l.x e) = true ∧ N.final (N.next l.y e) = true then l.out ++ [l.s ++ [e]]
          else l.out⟩
      else { l with x := M.next l.x e, y := N.next l.y e }, false) := by
  simp only [interEdge, ofMachine, Bool.and_eq_true]
  split
  · by_cases h1 : M.final (M.next l.x e) = true
    · by_cases h2 : N.final (N.next l.y e) = true
      · simp [h1, h2]
      · simp [h1, h2]
    · simp [h1]
  · rfl

/-! ### Strings yielded are accepted -/

/-- What holds of the entries of the stack. -/
def Good (M : Machine σ) (N : Machine τ) (p : List ℕ × σ × τ) : Prop :=
  p.2.1 = M.read p.1 ∧ p.2.2 = N.read p.1

/-- What holds of the local variables: the states belong to the string, unless there is no way on. -/
structure GoodLocals (M : Machine σ) (N : Machine τ) (l : InterLocals σ τ) : Prop where
  states : Good M N (l.s, l.x, l.y) ∨ M.truthy l.x = false ∨ N.truthy l.y = false
  stack : ∀ p ∈ l.stack, Good M N p
  out : ∀ s ∈ l.out, s ≠ [] ∧ M.Accepts s ∧ N.Accepts s

theorem read_snoc (M : Machine σ) (s : List ℕ) (e : ℕ) : M.read (s ++ [e]) = M.next (M.read s) e := by
  simp [Machine.read]

theorem interFor_good (hM : M.DeadEnds) (hN : N.DeadEnds) : ∀ (es : List ℕ) (l : InterLocals σ τ),
    GoodLocals M N l → ∃ l', interFor (ofMachine M) (ofMachine N) es l = (l', false) ∧
      GoodLocals M N l'
  | [], l, hl => ⟨l, rfl, hl⟩
  | e :: es, l, hl => by
    simp only [interFor, interEdge_machine]
    refine interFor_good hM hN es _ ?_
    split
    · rename_i ht
      have hg : Good M N (l.s, l.x, l.y) := by
        rcases hl.states with h | h | h
        · exact h
        · rw [hM _ e h] at ht; simp at ht
        · rw [hN _ e h] at ht; simp at ht
      obtain ⟨hx, hy⟩ := hg
      simp only at hx hy
      have h1 : Good M N (l.s ++ [e], M.next l.x e, N.next l.y e) := by
        constructor
        · simp only [read_snoc, hx]
        · simp only [read_snoc, hy]
      refine ⟨.inl h1, ?_, ?_⟩
      · intro p hp
        rcases List.mem_cons.1 hp with rfl | hp
        · exact h1
        · exact hl.stack p hp
      · simp only
        split
        · rename_i hf
          intro s hs
          rcases List.mem_append.1 hs with hs | hs
          · exact hl.out s hs
          · rw [List.mem_singleton] at hs
            subst hs
            refine ⟨by simp, ?_, ?_⟩
            · unfold Machine.Accepts
              rw [read_snoc, ← hx]
              exact hf.1
            · unfold Machine.Accepts
              rw [read_snoc, ← hy]
              exact hf.2
        · exact hl.out
    · rename_i ht
      refine ⟨.inr ?_, hl.stack, hl.out⟩
      simp only
      cases h1 : M.truthy (M.next l.x e) with
      | false => exact .inl rfl
      | true =>
        cases h2 : N.truthy (N.next l.y e) with
        | false => exact .inr rfl
        | true => exact absurd ⟨h1, h2⟩ ht

theorem interLoop_good (ord : Finset ℕ → List ℕ) (hM : M.DeadEnds) (hN : N.DeadEnds) :
    ∀ (n : ℕ) (stack : List (List ℕ × σ × τ)), (∀ p ∈ stack, Good M N p) →
      (∀ s ∈ (interLoop ord (ofMachine M) (ofMachine N) n stack).1,
        s ≠ [] ∧ M.Accepts s ∧ N.Accepts s) ∧
      (interLoop ord (ofMachine M) (ofMachine N) n stack).2 ≠ .attributeError
  | 0, [], _ => by simp [interLoop]
  | _ + 1, [], _ => by simp [interLoop]
  | 0, _ :: _, _ => by simp [interLoop]
  | n + 1, (s, x, y) :: rest, h => by
    obtain ⟨l', h1, h2⟩ := interFor_good hM hN
      (ord ((M.edges x).toFinset ∩ (N.edges y).toFinset)) ⟨s, x, y, rest, []⟩
      ⟨.inl (h _ List.mem_cons_self), fun p hp => h p (List.mem_cons_of_mem _ hp), by simp⟩
    have ih := interLoop_good ord hM hN n l'.stack h2.stack
    have e : interLoop ord (ofMachine M) (ofMachine N) (n + 1) ((s, x, y) :: rest) =
        (l'.out ++ (interLoop ord (ofMachine M) (ofMachine N) n l'.stack).1,
          (interLoop ord (ofMachine M) (ofMachine N) n l'.stack).2) := by
      simp only [interLoop]
      simp only [ofMachine] at h1 ⊢
      rw [h1]
    rw [e]
    refine ⟨fun t ht => ?_, ih.2⟩
    rcases List.mem_append.1 ht with ht | ht
    · exact h2.out t ht
    · exact ih.1 t ht

/-- **C251.** If no way leads on from states that count as false, `intersect` does not raise, and every string
that it yields, at any time and in whatever order Python iterates over sets, is accepted by both automata and
not empty. -/
theorem C251_sound (ord : Finset ℕ → List ℕ) (hM : M.DeadEnds) (hN : N.DeadEnds) (n : ℕ) :
    (∀ s ∈ (intersect ord (ofMachine M) (ofMachine N) n).1, s ≠ [] ∧ M.Accepts s ∧ N.Accepts s) ∧
    (intersect ord (ofMachine M) (ofMachine N) n).2 ≠ .attributeError :=
  interLoop_good ord hM hN n _ (by simp [Good, Machine.read])

/-- **C251.** With the automata of this module `intersect` raises `AttributeError` before it yields anything. -/
theorem C251_own_classes (ord : Finset ℕ → List ℕ) (pick : Finset State → State) (a b : NFA)
    (c d : DFA) (n : ℕ) :
    intersect ord (a.duck pick) (b.duck pick) (n + 1) = ([], .attributeError) ∧
    intersect ord (a.duck pick) c.duck (n + 1) = ([], .attributeError) ∧
    intersect ord c.duck (a.duck pick) (n + 1) = ([], .attributeError) ∧
    intersect ord c.duck d.duck (n + 1) = ([], .attributeError) :=
  ⟨rfl, rfl, rfl, rfl⟩

/-- One round of the `while` loop. -/
theorem interLoop_step {ord : Finset ℕ → List ℕ} {n : ℕ} {s : List ℕ} {x : σ} {y : τ}
    {rest : List (List ℕ × σ × τ)} {l : InterLocals σ τ}
    (h : interFor (ofMachine M) (ofMachine N) (ord ((M.edges x).toFinset ∩ (N.edges y).toFinset))
      ⟨s, x, y, rest, []⟩ = (l, false)) :
    interLoop ord (ofMachine M) (ofMachine N) (n + 1) ((s, x, y) :: rest) =
      (l.out ++ (interLoop ord (ofMachine M) (ofMachine N) n l.stack).1,
        (interLoop ord (ofMachine M) (ofMachine N) n l.stack).2) := by
  simp only [interLoop]
  simp only [ofMachine] at h ⊢
  rw [h]

/-! ### Strings that are missed -/

/-- Accepts "a" and "b" only (states: start, end, nowhere). -/
def aOrB : Machine (Option Bool) where
  start := some false
  edges := fun x => if x = some false then [97, 98] else []
  next := fun x c => if x = some false ∧ (c = 97 ∨ c = 98) then some true else none
  final := fun x => decide (x = some true)
  truthy := fun x => decide (x ≠ none)

/-- **C251.** `intersect` is not complete: applied to an automaton that accepts exactly "a" and "b", and
itself, it misses one of the two strings, in whatever order Python iterates over sets. -/
theorem C251_incomplete (ord : Finset ℕ → List ℕ) (hord : ∀ S : Finset ℕ, (ord S).Perm S.toList) (n : ℕ) :
    (∀ w, aOrB.Accepts w ↔ w = [97] ∨ w = [98]) ∧ aOrB.DeadEnds ∧
    ¬ ([97] ∈ (intersect ord (ofMachine aOrB) (ofMachine aOrB) n).1 ∧
      [98] ∈ (intersect ord (ofMachine aOrB) (ofMachine aOrB) n).1) := by
  have dead : ∀ w : List ℕ, w.foldl aOrB.next none = none := by
    intro w
    induction w with
    | nil => rfl
    | cons c w ih => exact ih
  have dead2 : ∀ (c : ℕ) (w : List ℕ), (c :: w).foldl aOrB.next (some true) = none := fun c w => dead w
  refine ⟨fun w => ?_, ?_, ?_⟩
  · unfold Machine.Accepts Machine.read
    cases w with
    | nil => decide
    | cons c w =>
      by_cases hc : c = 97 ∨ c = 98
      · have e : aOrB.next (some false) c = some true := by simp [aOrB, hc]
        have e' : (c :: w).foldl aOrB.next aOrB.start = w.foldl aOrB.next (some true) := by
          rw [List.foldl_cons]
          change w.foldl _ (aOrB.next (some false) c) = _
          rw [e]
        rw [e']
        cases w with
        | nil => simp [aOrB, hc]
        | cons d w =>
          rw [dead2]
          simp [aOrB]
      · have e : aOrB.next (some false) c = none := by simp [aOrB, hc]
        have e' : (c :: w).foldl aOrB.next aOrB.start = none := by
          rw [List.foldl_cons]
          change w.foldl _ (aOrB.next (some false) c) = _
          rw [e, dead]
        rw [e']
        rw [not_or] at hc
        simp [aOrB, hc.1, hc.2]
  · intro x c hx
    have : x = none := by simpa [aOrB] using hx
    subst this
    rfl
  · have h0 : ord ∅ = [] := by
      have := hord ∅
      rw [Finset.toList_empty] at this
      exact this.eq_nil
    have h2 : ord {97, 98} = [97, 98] ∨ ord {97, 98} = [98, 97] := by
      have h1 : (ord {97, 98}).Perm [97, 98] := by
        refine (hord _).trans ?_
        refine (List.perm_ext_iff_of_nodup (Finset.nodup_toList _) (by decide)).2 ?_
        intro a
        rw [Finset.mem_toList]
        simp
      have hl := h1.length_eq
      have hm := fun a => h1.mem_iff (a := a)
      have hn : (ord {97, 98}).Nodup := h1.nodup_iff.2 (by decide)
      match hord' : ord {97, 98}, hl with
      | [a, b], _ =>
        rw [hord'] at hm hn
        have ha := (hm a).1 (by simp)
        have hb := (hm b).1 (by simp)
        simp only [List.mem_cons, List.not_mem_nil, or_false] at ha hb
        rcases ha with rfl | rfl <;> rcases hb with rfl | rfl <;> simp_all
    have hi : (aOrB.edges (some false)).toFinset ∩ (aOrB.edges (some false)).toFinset = {97, 98} := by decide
    have he : (aOrB.edges (some true)).toFinset ∩ (aOrB.edges (some true)).toFinset = ∅ := by decide
    have key : ∀ a b, ord {97, 98} = [a, b] → (a = 97 ∨ a = 98) → ∀ n,
        (intersect ord (ofMachine aOrB) (ofMachine aOrB) n).1 ⊆ [[a]] := by
      intro a b hab ha n
      have hfor : interFor (ofMachine aOrB) (ofMachine aOrB) [a, b] ⟨[], some false, some false, [], []⟩ =
          (⟨[a], none, none, [([a], some true, some true)], [[a]]⟩, false) := by
        rcases ha with rfl | rfl <;> rfl
      have hend : ∀ n, (interLoop ord (ofMachine aOrB) (ofMachine aOrB) n [([a], some true, some true)]).1 = [] := by
        intro n
        cases n with
        | zero => rfl
        | succ n =>
          rw [interLoop_step (l := ⟨[a], some true, some true, [], []⟩) (by rw [he, h0]; rfl)]
          cases n <;> rfl
      cases n with
      | zero => exact List.nil_subset _
      | succ n =>
        change (interLoop ord (ofMachine aOrB) (ofMachine aOrB) (n + 1) [([], some false, some false)]).1 ⊆ _
        rw [interLoop_step (by rw [hi, hab, hfor])]
        change [[a]] ++ _ ⊆ _
        rw [hend]
        simp
    rintro ⟨m1, m2⟩
    rcases h2 with h | h
    · have := key _ _ h (by simp) n m2
      simp at this
    · have := key _ _ h (by simp) n m1
      simp at this

/-- Iteration in increasing order. -/
def increasing (S : Finset ℕ) : List ℕ := (List.range (S.sup id + 1)).filter (· ∈ S)

theorem increasing_perm (S : Finset ℕ) : (increasing S).Perm S.toList := by
  refine (List.perm_ext_iff_of_nodup (List.nodup_range.filter _) (Finset.nodup_toList _)).2 (fun a => ?_)
  simp only [List.mem_filter, List.mem_range, decide_eq_true_eq, Finset.mem_toList]
  exact ⟨fun h => h.2, fun h => ⟨Nat.lt_succ_of_le (Finset.le_sup (f := id) h), h⟩⟩

/-- In alphabetical order "a" is found. -/
example : intersect increasing (ofMachine aOrB) (ofMachine aOrB) 5 = ([[97]], .finished) := by
  decide +kernel

/-- Accepts "ab" only; the state 0 in the middle counts as false (0: after "a", 1: end, 2: nowhere, 3: start). -/
def viaZero : Machine ℕ where
  start := 3
  edges := fun x => if x = 3 then [97, 98] else if x = 0 then [98] else []
  next := fun x c => if x = 3 ∧ c = 97 then 0 else if x = 0 ∧ c = 98 then 1 else 2
  final := fun x => decide (x = 1)
  truthy := fun x => decide (x ≠ 0)

/-- **C251.** Without the assumption about states that count as false `intersect` can yield a string that neither
automaton accepts, for example if a state is the number 0. -/
theorem C251_zero_state : ∃ ord : Finset ℕ → List ℕ, (∀ S : Finset ℕ, (ord S).Perm S.toList) ∧
    [98] ∈ (intersect ord (ofMachine viaZero) (ofMachine viaZero) 1).1 ∧ ¬ viaZero.Accepts [98] ∧
    viaZero.Accepts [97, 98] := by
  refine ⟨increasing, increasing_perm, by decide +kernel, ?_, ?_⟩
  · unfold Machine.Accepts; decide
  · unfold Machine.Accepts; decide

/-! ### Automata that do not branch -/

/-- **C251.** If after every word the automata have at most one edge in common, `intersect` does yield every
common word other than the empty one: the word of length `k` in round `k`. -/
theorem C251_unbranched (ord : Finset ℕ → List ℕ) (hord : ∀ S : Finset ℕ, (ord S).Perm S.toList)
    (hone : ∀ w, ((M.edges (M.read w)).toFinset ∩ (N.edges (N.read w)).toFinset).card ≤ 1)
    {w : List ℕ} (hw : w ≠ []) (hM : M.Walks w) (hN : N.Walks w) (aM : M.Accepts w) (aN : N.Accepts w)
    (n : ℕ) (hn : w.length ≤ n) :
    w ∈ (intersect ord (ofMachine M) (ofMachine N) n).1 := by
  have key : ∀ (v u : List ℕ) (n : ℕ), w = u ++ v → v ≠ [] → v.length ≤ n →
      w ∈ (interLoop ord (ofMachine M) (ofMachine N) n [(u, M.read u, N.read u)]).1 := by
    intro v
    induction v with
    | nil => intro u n _ h; exact absurd rfl h
    | cons c v ih =>
      intro u n hwu _ hn
      obtain ⟨n, rfl⟩ : ∃ m, n = m + 1 := ⟨n - 1, by simp at hn; omega⟩
      obtain ⟨m1, t1⟩ := hM u c v hwu
      obtain ⟨m2, t2⟩ := hN u c v hwu
      have hc : c ∈ (M.edges (M.read u)).toFinset ∩ (N.edges (N.read u)).toFinset := by
        rw [Finset.mem_inter, List.mem_toFinset, List.mem_toFinset]
        exact ⟨m1, m2⟩
      have hS : (M.edges (M.read u)).toFinset ∩ (N.edges (N.read u)).toFinset = {c} := by
        refine Finset.eq_singleton_iff_unique_mem.2 ⟨hc, fun x hx => ?_⟩
        exact Finset.card_le_one.1 (hone u) x hx c hc
      have ho : ord {c} = [c] := by
        have := hord {c}
        rw [Finset.toList_singleton] at this
        exact List.perm_singleton.1 this
      rw [read_snoc] at t1 t2
      have hfor : interFor (ofMachine M) (ofMachine N) [c] ⟨u, M.read u, N.read u, [], []⟩ =
          (⟨u ++ [c], M.read (u ++ [c]), N.read (u ++ [c]),
            [(u ++ [c], M.read (u ++ [c]), N.read (u ++ [c]))],
            if M.final (M.read (u ++ [c])) = true ∧ N.final (N.read (u ++ [c])) = true then [u ++ [c]]
            else []⟩, false) := by
        simp only [interFor, interEdge_machine, t1, t2, and_self, if_true, read_snoc, List.nil_append]
      have e : interLoop ord (ofMachine M) (ofMachine N) (n + 1) [(u, M.read u, N.read u)] =
          ((if M.final (M.read (u ++ [c])) = true ∧ N.final (N.read (u ++ [c])) = true then [u ++ [c]]
            else []) ++ (interLoop ord (ofMachine M) (ofMachine N) n
              [(u ++ [c], M.read (u ++ [c]), N.read (u ++ [c]))]).1,
            (interLoop ord (ofMachine M) (ofMachine N) n
              [(u ++ [c], M.read (u ++ [c]), N.read (u ++ [c]))]).2) := by
        simp only [interLoop]
        simp only [ofMachine] at hfor ⊢
        rw [hS, ho, hfor]
      rw [e]
      refine List.mem_append.2 ?_
      by_cases hv : v = []
      · left
        subst hv
        rw [← hwu, if_pos ⟨aM, aN⟩]
        exact List.mem_singleton.2 rfl
      · right
        exact ih (u ++ [c]) n (by rw [hwu]; simp) hv (by simp at hn; omega)
  exact key w [] n rfl hw hn

/-- Accepts "ab" and "abab" and so on. -/
def abab : Machine ℕ where
  start := 1
  edges := fun x => if x = 1 then [97] else if x = 2 then [98] else []
  next := fun x c => if x = 1 ∧ c = 97 then 2 else if x = 2 ∧ c = 98 then 1 else 0
  final := fun x => decide (x = 1)
  truthy := fun x => decide (x ≠ 0)

example : (intersect increasing (ofMachine abab) (ofMachine abab) 4) =
    ([[97, 98], [97, 98, 97, 98]], .running) := by decide +kernel

/-- The hypotheses of the theorem hold for it. -/
example : (∀ w, ((abab.edges (abab.read w)).toFinset ∩ (abab.edges (abab.read w)).toFinset).card ≤ 1) ∧
    abab.Accepts [97, 98] ∧ abab.Walks [97, 98] := by
  refine ⟨fun w => ?_, by unfold Machine.Accepts; decide, ?_⟩
  · generalize abab.read w = x
    simp only [abab]
    split
    · decide
    · split <;> decide
  · intro u c v h
    match u, h with
    | [], h => simp at h; obtain ⟨rfl, rfl⟩ := h; decide
    | [a], h => simp at h; obtain ⟨rfl, rfl, rfl⟩ := h; decide
    | a :: b :: u, h => simp at h

end Auto
end Verif
