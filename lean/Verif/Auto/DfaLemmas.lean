import Verif.Auto.NfaLemmas
import Mathlib.Data.Finset.Powerset

/-!
# Lemmas about `to_dfa`
-/

namespace Verif
namespace Auto

open AutoSpec

/-- `self.transitions.get(src, dict()).get(c)`. -/
def DFA.trans (d : DFA) (i c : ℕ) : Option ℕ := Dict.get? ((Dict.get? d.transitions i).getD []) c

/-- The transition added for an input. -/
def DFA.addSym (d : DFA) (i : ℕ) (c : Sym) (j : ℕ) : DFA :=
  match c with
  | .chr c => d.addTransition i c j
  | _ => d.setDefault i j

theorem trans_addTransition (d : DFA) (i c j i' c' : ℕ) :
    (d.addTransition i c j).trans i' c' = if i = i' ∧ c = c' then some j else d.trans i' c' := by
  unfold DFA.trans DFA.addTransition
  simp only [Dict.get?_set]
  by_cases h : i = i'
  · subst h
    simp only [if_true, Option.getD_some, Dict.get?_set, true_and]
  · simp [h]

/-- The numbering of the sets of states. -/
structure IdsOk (ids : Dict (Finset State) ℕ) : Prop where
  lt : ∀ S i, Dict.get? ids S = some i → i < ids.length
  inj : ∀ S T i, Dict.get? ids S = some i → Dict.get? ids T = some i → S = T
  nodup : (Dict.keys ids).Nodup

/-- The inputs in `P` are recorded for the set `S` and no others. -/
def Recd (pick : Finset State → State) (nfa : NFA) (ids : Dict (Finset State) ℕ) (d : DFA)
    (S : Finset State) (P : Sym → Prop) : Prop :=
  ∀ i, Dict.get? ids S = some i →
    (∀ c, (P (.chr c) → ∃ j, Dict.get? ids (nfa.next pick S (.chr c)) = some j ∧
        d.trans i c = some j) ∧ (¬ P (.chr c) → d.trans i c = none)) ∧
    (P .any → ∃ j, Dict.get? ids (nfa.next pick S .any) = some j ∧
        Dict.get? d.defaults i = some j) ∧ (¬ P .any → Dict.get? d.defaults i = none)

/-- Invariant of `to_dfa`; `recorded S c` says that input `c` of `S` has been handled. -/
structure BInv (pick : Finset State → State) (nfa : NFA) (b : Build)
    (recorded : Finset State → Sym → Prop) : Prop where
  ids : IdsOk b.ids
  start : Dict.get? b.ids (nfa.start pick) = some 0 ∧ b.dfa.startState = 0
  frontier : ∀ S ∈ b.frontier, ∃ i, Dict.get? b.ids S = some i
  finals : ∀ S i, Dict.get? b.ids S = some i →
    (i ∈ b.dfa.finalStates ↔ nfa.isFinal S = true ∧ S ≠ nfa.start pick)
  fresh : ∀ i, b.ids.length ≤ i → i ∉ b.dfa.finalStates ∧ (∀ c, b.dfa.trans i c = none) ∧
    Dict.get? b.dfa.defaults i = none
  recd : ∀ S, Recd pick nfa b.ids b.dfa S (recorded S)
  known : ∀ S c, recorded S c → (∃ i, Dict.get? b.ids S = some i) ∧ S ∉ b.frontier
  small : ∀ S i, Dict.get? b.ids S = some i → S ⊆ insert (0, 0) nfa.dests
  distinct : b.frontier.Nodup

theorem get?_set_new {ids : Dict (Finset State) ℕ} {S T : Finset State} {n i : ℕ}
    (hS : Dict.get? ids S = none) (hT : Dict.get? ids T = some i) :
    Dict.get? (Dict.set ids S n) T = some i := by
  rw [Dict.get?_set]
  by_cases h : S = T
  · subst h; rw [hS] at hT; cases hT
  · simp [h, hT]

theorem length_set_new {ids : Dict (Finset State) ℕ} {S : Finset State} {n : ℕ}
    (hS : Dict.get? ids S = none) : (Dict.set ids S n).length = ids.length + 1 := by
  have h := Dict.keys_set ids S n
  have h2 := congrArg List.length h
  rw [if_neg (by rwa [← Dict.get?_eq_none])] at h2
  simpa [Dict.keys] using h2

/-- Numbering a new set and putting it on the frontier. -/
theorem BInv.discover {pick : Finset State → State} {nfa : NFA} {b : Build}
    {recorded : Finset State → Sym → Prop} (h : BInv pick nfa b recorded) {S : Finset State}
    (hS : Dict.get? b.ids S = none) (hsmall : S ⊆ insert (0, 0) nfa.dests) :
    BInv pick nfa ⟨Dict.set b.ids S b.ids.length,
      if nfa.isFinal S then b.dfa.addFinalState b.ids.length else b.dfa, S :: b.frontier⟩
      recorded := by
  have hstart : S ≠ nfa.start pick := by rintro rfl; rw [h.start.1] at hS; cases hS
  have htr : ∀ i c, DFA.trans (if nfa.isFinal S then b.dfa.addFinalState b.ids.length else b.dfa) i c =
      b.dfa.trans i c := by intro i c; split <;> rfl
  have hdf : (if nfa.isFinal S then b.dfa.addFinalState b.ids.length else b.dfa).defaults =
      b.dfa.defaults := by split <;> rfl
  constructor
  · -- ids
    constructor
    · intro T i hT
      simp only [Dict.get?_set] at hT
      simp only [length_set_new hS]
      by_cases hST : S = T
      · simp [hST] at hT; omega
      · simp [hST] at hT; have := h.ids.lt T i hT; omega
    · intro T U i hT hU
      simp only [Dict.get?_set] at hT hU
      by_cases h1 : S = T <;> by_cases h2 : S = U
      · exact h1.symm.trans h2
      · simp [h1] at hT
        simp [h2] at hU
        have := h.ids.lt U i hU; omega
      · simp [h1] at hT
        simp [h2] at hU
        have := h.ids.lt T i hT; omega
      · simp [h1] at hT
        simp [h2] at hU
        exact h.ids.inj T U i hT hU
    · exact Dict.nodup_keys_set h.ids.nodup _ _
  · refine ⟨get?_set_new hS h.start.1, ?_⟩
    simp only
    split
    · exact h.start.2
    · exact h.start.2
  · intro T hT
    simp only [List.mem_cons] at hT
    rcases hT with rfl | hT
    · exact ⟨b.ids.length, by simp [Dict.get?_set]⟩
    · obtain ⟨i, hi⟩ := h.frontier T hT
      exact ⟨i, get?_set_new hS hi⟩
  · intro T i hT
    simp only [Dict.get?_set] at hT
    by_cases hST : S = T
    · subst hST
      simp only [if_true, Option.some.injEq] at hT
      subst hT
      have hf := (h.fresh b.ids.length (le_refl _)).1
      by_cases hfin : nfa.isFinal S = true
      · simp [hfin, hstart, DFA.addFinalState]
      · simp [hfin, hf]
    · simp only [hST, if_false] at hT
      have := h.finals T i hT
      have hlt := h.ids.lt T i hT
      by_cases hfin : nfa.isFinal S = true
      · simp only [hfin, if_true, DFA.addFinalState, Finset.mem_insert, this]
        constructor
        · rintro (h' | h')
          · omega
          · exact h'
        · exact Or.inr
      · simpa [hfin] using this
  · intro i hi
    simp only [length_set_new hS] at hi
    obtain ⟨h1, h2, h3⟩ := h.fresh i (by omega)
    refine ⟨?_, ?_, ?_⟩
    · simp only
      split
      · simp only [DFA.addFinalState, Finset.mem_insert, not_or]
        exact ⟨by omega, h1⟩
      · exact h1
    · intro c; rw [htr]; exact h2 c
    · simp only [hdf]; exact h3
  · intro T i hT
    simp only [htr, hdf]
    by_cases hST : S = T
    · subst hST
      have hi : i = b.ids.length := by
        simp only [Dict.get?_set, if_true, Option.some.injEq] at hT; exact hT.symm
      subst hi
      have hno : ∀ c, ¬ recorded S c := by
        intro c hc
        obtain ⟨⟨i, hi⟩, -⟩ := h.known S c hc
        rw [hS] at hi; cases hi
      obtain ⟨-, h2, h3⟩ := h.fresh b.ids.length (le_refl _)
      refine ⟨fun c => ⟨fun hc => absurd hc (hno _), fun _ => h2 c⟩, fun hc => absurd hc (hno _),
        fun _ => h3⟩
    · have hT' : Dict.get? b.ids T = some i := by
        simpa [Dict.get?_set, hST] using hT
      obtain ⟨r1, r2, r3⟩ := h.recd T i hT'
      refine ⟨fun c => ⟨fun hc => ?_, (r1 c).2⟩, fun hc => ?_, r3⟩
      · obtain ⟨j, hj, ht⟩ := (r1 c).1 hc
        exact ⟨j, get?_set_new hS hj, ht⟩
      · obtain ⟨j, hj, ht⟩ := r2 hc
        exact ⟨j, get?_set_new hS hj, ht⟩
  · intro T c hc
    obtain ⟨⟨i, hi⟩, hnf⟩ := h.known T c hc
    refine ⟨⟨i, get?_set_new hS hi⟩, ?_⟩
    simp only [List.mem_cons, not_or]
    refine ⟨?_, hnf⟩
    rintro rfl
    rw [hS] at hi; cases hi
  · intro T i hT
    simp only [Dict.get?_set] at hT
    by_cases hST : S = T
    · subst hST; exact hsmall
    · simp only [hST, if_false] at hT
      exact h.small T i hT
  · refine List.nodup_cons.mpr ⟨fun hm => ?_, h.distinct⟩
    obtain ⟨i, hi⟩ := h.frontier S hm
    rw [hS] at hi; cases hi

/-- Recording one more input. -/
theorem BInv.record {pick : Finset State → State} {nfa : NFA} {b : Build}
    {recorded : Finset State → Sym → Prop} (h : BInv pick nfa b recorded) {cur : Finset State}
    {c : Sym} (hc : c ≠ .eps) {i j : ℕ} (hi : Dict.get? b.ids cur = some i)
    (hj : Dict.get? b.ids (nfa.next pick cur c) = some j) (hcur : cur ∉ b.frontier) :
    BInv pick nfa { b with dfa := b.dfa.addSym i c j }
      (fun S x => recorded S x ∨ (S = cur ∧ x = c)) := by
  have hfin : (b.dfa.addSym i c j).finalStates = b.dfa.finalStates := by cases c <;> rfl
  constructor
  · exact h.ids
  · refine ⟨h.start.1, ?_⟩
    cases c <;> exact h.start.2
  · exact h.frontier
  · intro S k hk
    simp only [hfin]
    exact h.finals S k hk
  · intro k hk
    simp only [hfin]
    obtain ⟨h1, h2, h3⟩ := h.fresh k hk
    have hlt := h.ids.lt cur i hi
    simp only at hk
    refine ⟨h1, ?_, ?_⟩
    · intro x
      cases c with
      | eps => exact absurd rfl hc
      | any => exact h2 x
      | chr c =>
        simp only [DFA.addSym, trans_addTransition]
        rw [if_neg (by omega)]
        exact h2 x
    · cases c with
      | eps => exact absurd rfl hc
      | any =>
        simp only [DFA.addSym, DFA.setDefault, Dict.get?_set]
        rw [if_neg (by omega)]
        exact h3
      | chr c => exact h3
  · intro S k hk
    simp only at hk
    obtain ⟨r1, r2, r3⟩ := h.recd S k hk
    by_cases hS : S = cur
    · subst hS
      have hik : i = k := by rw [hi] at hk; exact Option.some.inj hk
      subst hik
      cases c with
      | eps => exact absurd rfl hc
      | any =>
        simp only [DFA.addSym, DFA.setDefault, Dict.get?_set, if_true,
          reduceCtorEq, and_false, or_false, or_true, not_true_eq_false, false_implies,
          and_true, forall_const]
        exact ⟨r1, j, hj, rfl⟩
      | chr c =>
        simp only [DFA.addSym, trans_addTransition, true_and, Sym.chr.injEq, reduceCtorEq,
          and_false, or_false]
        refine ⟨fun x => ⟨fun hx => ?_, fun hx => ?_⟩, r2, r3⟩
        · by_cases hcx : c = x
          · subst hcx; exact ⟨j, hj, by simp⟩
          · rcases hx with hx | hx
            · rw [if_neg hcx]; exact (r1 x).1 hx
            · exact absurd hx.symm hcx
        · push Not at hx
          rw [if_neg (Ne.symm hx.2)]
          exact (r1 x).2 hx.1
    · have hik : i ≠ k := fun hik => hS (h.ids.inj S cur i (by rw [hik]; exact hk) hi)
      have hrec : ∀ x, (recorded S x ∨ (S = cur ∧ x = c)) ↔ recorded S x := by simp [hS]
      simp only [hrec]
      cases c with
      | eps => exact absurd rfl hc
      | any =>
        simp only [DFA.addSym, DFA.setDefault, Dict.get?_set, hik, if_false]
        exact ⟨r1, r2, r3⟩
      | chr c =>
        simp only [DFA.addSym, trans_addTransition, hik, false_and, if_false]
        exact ⟨r1, r2, r3⟩
  · rintro S x (hx | ⟨rfl, rfl⟩)
    · exact h.known S x hx
    · exact ⟨⟨i, hi⟩, hcur⟩
  · exact h.small
  · exact h.distinct

theorem next_small {pick : Finset State → State} (hp : PickOk pick) (nfa : NFA) (S : Finset State)
    (c : Sym) : nfa.next pick S c ⊆ insert (0, 0) nfa.dests := by
  refine (expand_subset hp nfa _).trans ?_
  intro t ht
  rcases Finset.mem_union.mp ht with ht | ht
  · obtain ⟨s, -, hs⟩ := Finset.mem_biUnion.mp ht
    rcases Finset.mem_union.mp hs with hs | hs
    · exact Finset.mem_insert_of_mem (delta_subset_dests _ _ _ hs)
    · exact Finset.mem_insert_of_mem (delta_subset_dests _ _ _ hs)
  · exact Finset.mem_insert_of_mem ht

/-- One round of the inner loop. -/
theorem BInv.input {pick : Finset State → State} (hp : PickOk pick) {nfa : NFA} {b : Build}
    {recorded : Finset State → Sym → Prop} (h : BInv pick nfa b recorded) {cur : Finset State}
    {c : Sym} (hc : c ≠ .eps) {i : ℕ} (hi : Dict.get? b.ids cur = some i) (hcur : cur ∉ b.frontier) :
    let b' := b.input pick nfa cur c
    BInv pick nfa b' (fun S x => recorded S x ∨ (S = cur ∧ x = c)) ∧
      Dict.get? b'.ids cur = some i ∧ cur ∉ b'.frontier ∧
      b'.ids.length + b.frontier.length = b.ids.length + b'.frontier.length ∧
      (∀ S k, Dict.get? b'.ids S = some k → Dict.get? b.ids S = some k ∨ S ∈ b'.frontier) ∧
      (∀ S ∈ b.frontier, S ∈ b'.frontier) := by
  intro b'
  rcases Option.eq_none_or_eq_some (Dict.get? b.ids (nfa.next pick cur c)) with hS | ⟨j, hS⟩
  · have hne : nfa.next pick cur c ≠ cur := by
      intro he; rw [he, hi] at hS; cases hS
    have hb : b' = ⟨Dict.set b.ids (nfa.next pick cur c) b.ids.length,
        DFA.addSym (if nfa.isFinal (nfa.next pick cur c) then b.dfa.addFinalState b.ids.length
          else b.dfa) i c b.ids.length, nfa.next pick cur c :: b.frontier⟩ := by
      have hhas : Dict.has b.ids (nfa.next pick cur c) = false := by simp [Dict.has, hS]
      have hcur' := get?_set_new (n := b.ids.length) hS hi
      have hself : Dict.get? (Dict.set b.ids (nfa.next pick cur c) b.ids.length)
          (nfa.next pick cur c) = some b.ids.length := by simp [Dict.get?_set]
      simp only [b', Build.input, Build.discover, hhas]
      by_cases hfin : nfa.isFinal (nfa.next pick cur c) = true
      · cases c <;> simp [hfin, nodeId, hS, hcur', hself, DFA.addSym]
      · cases c <;> simp [hfin, nodeId, hS, hi, DFA.addSym]
    have h1 := h.discover hS (next_small hp nfa cur c)
    have h2 := h1.record (cur := cur) (c := c) (i := i) (j := b.ids.length) hc
      (get?_set_new hS hi) (by simp [Dict.get?_set]) (by simp [Ne.symm hne, hcur])
    rw [hb]
    refine ⟨h2, get?_set_new hS hi, by simp [Ne.symm hne, hcur], ?_, ?_, ?_⟩
    · simp only [length_set_new hS, List.length_cons]; omega
    · intro T k hT
      simp only [Dict.get?_set] at hT
      by_cases hST : nfa.next pick cur c = T
      · right; simp [hST]
      · left; simpa [hST] using hT
    · intro T hT; simp [hT]
  · have hb : b' = { b with dfa := b.dfa.addSym i c j } := by
      have hhas : Dict.has b.ids (nfa.next pick cur c) = true := by simp [Dict.has, hS]
      simp only [b', Build.input, Build.discover, hhas]
      cases c <;> simp [nodeId, hS, hi, DFA.addSym]
    rw [hb]
    exact ⟨h.record hc hi hS hcur, hi, hcur, rfl, fun T k hT => Or.inl hT, fun T hT => hT⟩

/-- The inner loop. -/
theorem BInv.inputs {pick : Finset State → State} (hp : PickOk pick) {nfa : NFA}
    (cs : List Sym) (hcs : ∀ c ∈ cs, c ≠ .eps) {cur : Finset State} {i : ℕ} {b : Build}
    {recorded : Finset State → Sym → Prop} (h : BInv pick nfa b recorded)
    (hi : Dict.get? b.ids cur = some i) (hcur : cur ∉ b.frontier) :
    let b' := cs.foldl (Build.input pick nfa cur) b
    BInv pick nfa b' (fun S x => recorded S x ∨ (S = cur ∧ x ∈ cs)) ∧
      cur ∉ b'.frontier ∧
      b'.ids.length + b.frontier.length = b.ids.length + b'.frontier.length ∧
      (∀ S k, Dict.get? b'.ids S = some k → Dict.get? b.ids S = some k ∨ S ∈ b'.frontier) ∧
      (∀ S ∈ b.frontier, S ∈ b'.frontier) := by
  induction cs generalizing b recorded with
  | nil =>
    refine ⟨?_, hcur, rfl, fun _ _ hT => Or.inl hT, fun _ hS => hS⟩
    have : (fun S x => recorded S x ∨ (S = cur ∧ x ∈ ([] : List Sym))) = recorded := by
      funext S x; simp
    rw [List.foldl_nil, this]; exact h
  | cons c cs ih =>
    obtain ⟨h1, h2, h3, h4, h5, h6⟩ := h.input hp (hcs c (by simp)) hi hcur
    obtain ⟨g1, g2, g3, g4, g5⟩ := ih (fun x hx => hcs x (by simp [hx])) h1 h2 h3
    refine ⟨?_, g2, ?_, ?_, fun S hS => g5 S (h6 S hS)⟩
    · have : (fun S x => recorded S x ∨ (S = cur ∧ x ∈ c :: cs)) =
          (fun S x => (recorded S x ∨ (S = cur ∧ x = c)) ∨ (S = cur ∧ x ∈ cs)) := by
        funext S x
        simp only [List.mem_cons, eq_iff_iff]
        tauto
      rw [this]; exact g1
    · simp only [List.foldl_cons]; omega
    · intro S k hk
      rcases g4 S k hk with hk | hk
      · rcases h5 S k hk with hk | hk
        · exact Or.inl hk
        · exact Or.inr (g5 S hk)
      · exact Or.inr hk

/-- Everything except the frontier is recorded completely. -/
def Complete (nfa : NFA) (b : Build) (recorded : Finset State → Sym → Prop) : Prop :=
  ∀ S i, Dict.get? b.ids S = some i → S ∉ b.frontier →
    ∀ c, recorded S c ↔ c ∈ nfa.inputs S ∧ c ≠ .eps

/-- The order in which a set is iterated over lists its elements. -/
def OrderOk (order : Finset Sym → List Sym) : Prop := ∀ S c, c ∈ order S ↔ c ∈ S

theorem ids_le {pick : Finset State → State} {nfa : NFA} {b : Build}
    {recorded : Finset State → Sym → Prop} (h : BInv pick nfa b recorded) :
    b.ids.length ≤ 2 ^ (nfa.dests.card + 1) := by
  have h1 : (Dict.keys b.ids).toFinset ⊆ (insert ((0, 0) : State) nfa.dests).powerset := by
    intro S hS
    rw [List.mem_toFinset, Dict.mem_keys_iff] at hS
    obtain ⟨i, hi⟩ := hS
    exact Finset.mem_powerset.mpr (h.small S i hi)
  have h2 := Finset.card_le_card h1
  rw [List.toFinset_card_of_nodup h.ids.nodup, Finset.card_powerset] at h2
  have h3 : (insert ((0, 0) : State) nfa.dests).card ≤ nfa.dests.card + 1 := Finset.card_insert_le _ _
  have h4 := Nat.pow_le_pow_right (n := 2) (by omega) h3
  have h5 : (Dict.keys b.ids).length = b.ids.length := by simp [Dict.keys]
  omega

theorem buildLoop_spec {pick : Finset State → State} (hp : PickOk pick)
    {order : Finset Sym → List Sym} (ho : OrderOk order) (nfa : NFA) (fuel : ℕ) :
    ∀ (b : Build) (recorded : Finset State → Sym → Prop) (popped : ℕ),
      BInv pick nfa b recorded → Complete nfa b recorded →
      b.ids.length = b.frontier.length + popped → 2 ^ (nfa.dests.card + 1) < popped + fuel →
      ∃ recorded', BInv pick nfa (nfa.buildLoop pick order fuel b) recorded' ∧
        Complete nfa (nfa.buildLoop pick order fuel b) recorded' ∧
        (nfa.buildLoop pick order fuel b).frontier = [] := by
  induction fuel with
  | zero =>
    intro b recorded popped h _ hl hf
    have := ids_le h
    omega
  | succ fuel ih =>
    intro b recorded popped h hc hl hf
    rw [NFA.buildLoop]
    cases hfr : b.frontier with
    | nil => exact ⟨recorded, h, hc, hfr⟩
    | cons cur rest =>
      simp only
      have hnd' := h.distinct
      rw [hfr, List.nodup_cons] at hnd'
      obtain ⟨i, hi⟩ := h.frontier cur (by rw [hfr]; simp)
      have hno : ∀ c, ¬ recorded cur c := fun c hr => (h.known cur c hr).2 (by rw [hfr]; simp)
      have h0 : BInv pick nfa { b with frontier := rest } recorded := by
        refine ⟨h.ids, h.start, fun S hS => h.frontier S (by rw [hfr]; simp [hS]), h.finals, h.fresh,
          h.recd, fun S c hr => ⟨(h.known S c hr).1, fun hS => (h.known S c hr).2 ?_⟩, h.small,
          hnd'.2⟩
        rw [hfr]; exact List.mem_cons_of_mem _ hS
      have hcs : ∀ c ∈ order (nfa.inputs cur \ {Sym.eps}), c ≠ .eps := by
        intro c hc
        rw [ho] at hc
        simpa using (Finset.mem_sdiff.mp hc).2
      obtain ⟨g1, g2, g3, g4, g5⟩ := h0.inputs hp _ hcs hi hnd'.1
      refine ih _ _ (popped + 1) g1 ?_ ?_ (by omega)
      · intro S k hk hS c
        by_cases hSc : S = cur
        · subst hSc
          have hm := ho (nfa.inputs S \ {Sym.eps}) c
          rw [Finset.mem_sdiff, Finset.mem_singleton] at hm
          simp only [hno, false_or, true_and, hm, ne_eq]
        · rcases g4 S k hk with hk' | hk'
          · simp only [hSc, false_and, or_false]
            by_cases hSr : S ∈ rest
            · exfalso
              exact hS (g5 S hSr)
            · exact hc S k hk' (by rw [hfr]; simp [hSc, hSr]) c
          · exact absurd hk' hS
      · rw [hfr] at hl
        simp only [List.length_cons] at hl
        simp only at g3
        omega

/-- What `to_dfa` returns: sets of states are numbered by `ids`, the start set has number 0. -/
structure DfaOk (pick : Finset State → State) (nfa : NFA) (d : DFA)
    (ids : Dict (Finset State) ℕ) : Prop where
  inj : ∀ S T i, Dict.get? ids S = some i → Dict.get? ids T = some i → S = T
  start : Dict.get? ids (nfa.start pick) = some 0
  startState : d.startState = 0
  finals : ∀ S i, Dict.get? ids S = some i →
    (i ∈ d.finalStates ↔ nfa.isFinal S = true ∧ S ≠ nfa.start pick)
  recd : ∀ S, Recd pick nfa ids d S (fun c => c ∈ nfa.inputs S ∧ c ≠ .eps)

theorem toDFA_ok {pick : Finset State → State} (hp : PickOk pick)
    {order : Finset Sym → List Sym} (ho : OrderOk order) (nfa : NFA) :
    ∃ ids, DfaOk pick nfa (nfa.toDFA pick order) ids := by
  have hn : nodeId [] (nfa.start pick) = ([(nfa.start pick, 0)], 0) := by
    simp [nodeId, Dict.set]
  have h0 : BInv pick nfa ⟨[(nfa.start pick, 0)], DFA.new 0, [nfa.start pick]⟩ (fun _ _ => False) := by
    have hget : ∀ S i, Dict.get? [(nfa.start pick, 0)] S = some i ↔ nfa.start pick = S ∧ 0 = i := by
      intro S i
      rw [Dict.get?_cons]
      by_cases h : nfa.start pick = S <;> simp [h]
    constructor
    · constructor
      · intro S i h; have := ((hget S i).mp h).2; simp; omega
      · intro S T i h1 h2; exact ((hget S i).mp h1).1.symm.trans ((hget T i).mp h2).1
      · simp
    · exact ⟨(hget _ _).mpr ⟨rfl, rfl⟩, rfl⟩
    · intro S hS
      rw [List.mem_singleton] at hS
      exact ⟨0, (hget S 0).mpr ⟨hS.symm, rfl⟩⟩
    · intro S i h
      simp [DFA.new, ((hget S i).mp h).1.symm]
    · intro i _; simp [DFA.new, DFA.trans]
    · intro S i _; simp [DFA.new, DFA.trans]
    · intro S c h; exact absurd h id
    · intro S i h
      rw [← ((hget S i).mp h).1]
      refine (expand_subset hp nfa _).trans ?_
      intro t ht
      simpa using ht
    · simp
  obtain ⟨rc, h1, h2, h3⟩ := buildLoop_spec hp ho nfa (2 ^ (nfa.dests.card + 1) + 1) _ _ 0 h0
    (by
      intro S i hS hnf
      exfalso
      apply hnf
      rw [Dict.get?_cons] at hS
      by_cases h : nfa.start pick = S
      · simp [h]
      · simp [h] at hS) rfl (by omega)
  have hd : nfa.toDFA pick order = (nfa.buildLoop pick order (2 ^ (nfa.dests.card + 1) + 1)
      ⟨[(nfa.start pick, 0)], DFA.new 0, [nfa.start pick]⟩).dfa := by
    unfold NFA.toDFA
    rw [hn]
  rw [hd]
  refine ⟨_, h1.ids.inj, h1.start.1, h1.start.2, h1.finals, ?_⟩
  intro S i hi
  have hr := h1.recd S i hi
  have hc := h2 S i hi (by rw [h3]; simp)
  simp only [hc] at hr
  exact hr

/-- The state reached from `q` by reading a word. -/
def DFA.run (d : DFA) : ℕ → List ℕ → Option ℕ
  | q, [] => some q
  | q, c :: cs => (d.nextState q c).bind (fun q => DFA.run d q cs)

theorem run_append (d : DFA) (q : ℕ) (u v : List ℕ) :
    d.run q (u ++ v) = (d.run q u).bind (fun q => d.run q v) := by
  induction u generalizing q with
  | nil => rfl
  | cons c u ih =>
    simp only [List.cons_append, DFA.run]
    cases d.nextState q c with
    | none => rfl
    | some s => exact ih s

theorem run_snoc (d : DFA) (q : ℕ) (u : List ℕ) (c : ℕ) :
    d.run q (u ++ [c]) = (d.run q u).bind (fun q => d.nextState q c) := by
  rw [run_append]
  congr 1
  funext q
  simp only [DFA.run]
  cases d.nextState q c <;> rfl

section
variable {nfa : NFA} {ts : List (State × Sym × State)} {fs : List State}
  {pick : Finset State → State}

theorem next_chr_any (h : Rep nfa ts fs) {S : Finset State} {c : ℕ}
    (hc : Sym.chr c ∉ nfa.inputs S) : nfa.next pick S .any = nfa.next pick S (.chr c) := by
  unfold NFA.next
  congr 1
  refine Finset.biUnion_congr rfl (fun s hs => ?_)
  have : nfa.delta s (.chr c) = ∅ := by
    rw [Finset.eq_empty_iff_forall_notMem]
    intro t ht
    exact hc ((mem_inputs h S _).mpr ⟨s, hs, t, (h.delta _ _ _).mp ht⟩)
  rw [this]
  simp

theorem next_ne_empty (h : Rep nfa ts fs) (hp : PickOk pick) {S : Finset State} {c : ℕ} :
    nfa.next pick S (.chr c) ≠ ∅ ↔ Sym.chr c ∈ nfa.inputs S ∨ Sym.any ∈ nfa.inputs S := by
  rw [mem_inputs h, mem_inputs h, ← Finset.nonempty_iff_ne_empty]
  constructor
  · rintro ⟨t, ht⟩
    obtain ⟨s, hs, -⟩ := (mem_expand hp nfa _ t).mp ht
    obtain ⟨a, ha, hs⟩ := Finset.mem_biUnion.mp hs
    rcases Finset.mem_union.mp hs with hs | hs
    · exact Or.inl ⟨a, ha, s, (h.delta _ _ _).mp hs⟩
    · exact Or.inr ⟨a, ha, s, (h.delta _ _ _).mp hs⟩
  · rintro (⟨a, ha, s, hs⟩ | ⟨a, ha, s, hs⟩)
    · exact ⟨s, (mem_expand hp nfa _ s).mpr ⟨s, Finset.mem_biUnion.mpr ⟨a, ha,
        Finset.mem_union_left _ ((h.delta _ _ _).mpr hs)⟩, .refl⟩⟩
    · exact ⟨s, (mem_expand hp nfa _ s).mpr ⟨s, Finset.mem_biUnion.mpr ⟨a, ha,
        Finset.mem_union_right _ ((h.delta _ _ _).mpr hs)⟩, .refl⟩⟩

theorem nextState_eq {d : DFA} {ids : Dict (Finset State) ℕ} (h : Rep nfa ts fs) (hp : PickOk pick)
    (hd : DfaOk pick nfa d ids) {S : Finset State} {i : ℕ} (hi : Dict.get? ids S = some i) (c : ℕ) :
    (nfa.next pick S (.chr c) = ∅ → d.nextState i c = none) ∧
    (nfa.next pick S (.chr c) ≠ ∅ → ∃ j, Dict.get? ids (nfa.next pick S (.chr c)) = some j ∧
      d.nextState i c = some j) := by
  obtain ⟨r1, r2, r3⟩ := hd.recd S i hi
  have hns : d.nextState i c = match d.trans i c with
    | some s => some s
    | none => Dict.get? d.defaults i := rfl
  constructor
  · intro he
    have := mt (next_ne_empty h hp (S := S) (c := c)).mpr (by simp [he])
    push Not at this
    rw [hns, (r1 c).2 (by simp [this.1]), r3 (by simp [this.2])]
  · intro hne
    by_cases hc : Sym.chr c ∈ nfa.inputs S
    · obtain ⟨j, hj, ht⟩ := (r1 c).1 ⟨hc, by simp⟩
      exact ⟨j, hj, by rw [hns, ht]⟩
    · have ha : Sym.any ∈ nfa.inputs S := by
        rcases (next_ne_empty h hp).mp hne with h' | h'
        · exact absurd h' hc
        · exact h'
      obtain ⟨j, hj, ht⟩ := r2 ⟨ha, by simp⟩
      rw [next_chr_any h hc] at hj
      exact ⟨j, hj, by rw [hns, (r1 c).2 (by simp [hc]), ht]⟩

theorem next_empty (hp : PickOk pick) (c : Sym) : nfa.next pick ∅ c = ∅ := by
  rw [Finset.eq_empty_iff_forall_notMem]
  intro t ht
  obtain ⟨s, hs, -⟩ := (mem_expand hp nfa _ t).mp ht
  simp at hs

/-- The automaton is in the state numbered by the set of states of the original one. -/
theorem run_eq {d : DFA} {ids : Dict (Finset State) ℕ} (h : Rep nfa ts fs) (hp : PickOk pick)
    (hd : DfaOk pick nfa d ids) (w : List ℕ) :
    (nfa.subset pick w = ∅ → d.run 0 w = none) ∧
    (nfa.subset pick w ≠ ∅ → ∃ j, Dict.get? ids (nfa.subset pick w) = some j ∧
      d.run 0 w = some j) := by
  induction w using List.reverseRecOn with
  | nil =>
    have hne : nfa.subset pick [] ≠ ∅ := by
      rw [← Finset.nonempty_iff_ne_empty]
      exact ⟨(0, 0), (mem_subset h hp _ _).mpr (.nil _)⟩
    exact ⟨fun he => absurd he hne, fun _ => ⟨0, hd.start, rfl⟩⟩
  | append_singleton w c ih =>
    rw [subset_snoc, run_snoc]
    by_cases he : nfa.subset pick w = ∅
    · rw [he, next_empty hp]
      exact ⟨fun _ => by rw [ih.1 he]; rfl, fun hne => absurd rfl hne⟩
    · obtain ⟨j, hj, hr⟩ := ih.2 he
      obtain ⟨n1, n2⟩ := nextState_eq h hp hd hj c
      rw [hr]
      exact ⟨n1, n2⟩

/-- Acceptance by the constructed automaton. -/
theorem isFinal_run {d : DFA} {ids : Dict (Finset State) ℕ} (h : Rep nfa ts fs) (hp : PickOk pick)
    (hd : DfaOk pick nfa d ids) (w : List ℕ) :
    d.isFinal (d.run 0 w) = true ↔
      (∃ t ∈ fs, Path ts (0, 0) w t) ∧ nfa.subset pick w ≠ nfa.start pick := by
  obtain ⟨h1, h2⟩ := run_eq h hp hd w
  by_cases he : nfa.subset pick w = ∅
  · rw [h1 he]
    simp only [DFA.isFinal, Bool.false_eq_true, false_iff, not_and]
    rintro ⟨t, -, ht⟩
    rw [← mem_subset h hp, he] at ht
    simp at ht
  · obtain ⟨j, hj, hr⟩ := h2 he
    rw [hr]
    simp only [DFA.isFinal, decide_eq_true_eq]
    rw [hd.finals _ _ hj, isFinal_iff h]
    simp only [mem_subset h hp]

end

end Auto
end Verif
