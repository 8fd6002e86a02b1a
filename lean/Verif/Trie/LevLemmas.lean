import Verif.Trie.Lev
import Verif.Trie.Node
import Verif.Edit.Dist
import Mathlib.Tactic.Linarith

/-!
# Rows of the edit distance tables and pruning

Helper lemmas only; the property theorems are in `Verif.Trie.LevProps`.
-/

namespace Verif
namespace Trie

open EditSpec

variable {κ τ ν : Type} [DecidableEq τ]

section
variable (c : Costs ℚ) (word : List τ)

/-- Entry `j` of the row of `p`. -/
def cell (p : List τ) (j : Nat) : ℚ := dist c (word.take j).reverse p.reverse

/-- The table of a path. -/
def tableOf {α : Type} (R : List τ → α) (p : List τ) : List α :=
  tabulate (p.length + 1) (fun i => R (p.take i))

omit [DecidableEq τ] in
theorem tableOf_last {α : Type} (R : List τ → α) (p : List τ) :
    pyGetI (tableOf R p) (-1) = .ok (R p) := by
  unfold tableOf
  rw [pyGetI_last]
  simp

omit [DecidableEq τ] in
theorem tableOf_last2 {α : Type} (R : List τ → α) (p : List τ) (h : p ≠ []) :
    pyGetI (tableOf R p) (-2) = .ok (R p.dropLast) := by
  unfold tableOf
  obtain ⟨n, hn⟩ : ∃ n, p.length = n + 1 := ⟨p.length - 1, by
    have := List.length_pos_of_ne_nil h; omega⟩
  rw [hn, pyGetI_last2, List.dropLast_eq_take, hn]
  rfl

omit [DecidableEq τ] in
theorem tableOf_snoc {α : Type} (R : List τ → α) (p : List τ) (x : τ) :
    tableOf R (p ++ [x]) = tableOf R p ++ [R (p ++ [x])] := by
  unfold tableOf tabulate
  rw [List.length_append, List.length_singleton, List.range_succ, List.map_append]
  congr 1
  · refine List.map_congr_left ?_
    intro i hi
    rw [List.mem_range] at hi
    rw [List.take_append_of_le_length (by omega)]
  · simp only [List.map_cons, List.map_nil]
    rw [List.take_of_length_le (by simp)]

omit [DecidableEq τ] in
theorem tableOf_dropLast {α : Type} (R : List τ → α) (p : List τ) (h : p ≠ []) :
    (tableOf R p).dropLast = tableOf R p.dropLast := by
  obtain ⟨q, x, rfl⟩ : ∃ q x, p = q ++ [x] := ⟨p.dropLast, p.getLast h, (List.dropLast_append_getLast h).symm⟩
  rw [tableOf_snoc]
  simp

theorem cell_zero (p : List τ) : cell c word p 0 = p.length * c.ins := by
  unfold cell
  rw [List.take_zero, List.reverse_nil, dist_nil_left]
  simp

theorem cell_nil (j : Nat) (h : j ≤ word.length) : cell c word [] j = j * c.del := by
  unfold cell
  rw [List.reverse_nil, dist_nil_right]
  simp [h]

variable {c word}

/-- The recursion on an inner entry. -/
theorem cell_snoc {pre cs : List τ} {ch : τ} (hw : word = pre ++ ch :: cs) (p : List τ) (key : τ)
    (hc : c.Nonneg) :
    cell c word (p ++ [key]) (pre.length + 1) =
      if key = ch then cell c word p pre.length
      else
        let m := min (min (cell c word p (pre.length + 1) + c.ins)
          (cell c word (p ++ [key]) pre.length + c.del)) (cell c word p pre.length + c.sub)
        if pre.getLast? = some key ∧ p.getLast? = some ch then
          match c.swap with
          | some t => min m (cell c word p.dropLast (pre.length - 1) + t)
          | none => m
        else m := by
  have h1 : (word.take (pre.length + 1)).reverse = ch :: pre.reverse := by
    have : word = (pre ++ [ch]) ++ cs := by rw [hw]; simp
    rw [this, List.take_left' (by simp)]
    simp
  have h2 : word.take pre.length = pre := by rw [hw]; simp
  have h3 : word.take (pre.length - 1) = pre.dropLast := by
    rw [List.dropLast_eq_take, hw, List.take_append_of_le_length (by omega)]
  unfold cell
  rw [h1, h2, h3, List.reverse_append, List.reverse_singleton, List.singleton_append]
  by_cases hk : key = ch
  · subst hk
    rw [if_pos rfl, dist_same hc]
  · rw [if_neg hk, dist_diff c (Ne.symm hk)]
    simp only [List.head?_reverse, List.tail_reverse]
    cases c.swap <;> rfl

end


/-- The costs of a call. -/
abbrev callCosts (ins del sub swap : ℚ) : Costs ℚ := ⟨ins, del, sub, some swap⟩

section
variable {ins del sub swap : ℚ} {word : List τ}

/-- A row of `levenshtein_lookup`. -/
def levRowOf (ins del sub swap : ℚ) (word p : List τ) : List ℚ :=
  tabulate (word.length + 1) (cell (callCosts ins del sub swap) word p)

omit [DecidableEq τ] in
theorem swap_test {pre cs p : List τ} {ch key : τ} (hw : word = pre ++ ch :: cs) :
    (p ≠ [] ∧ pre.length ≠ 0 ∧ word[pre.length - 1]? = some key ∧ p.getLast? = some ch) ↔
      (pre.getLast? = some key ∧ p.getLast? = some ch) := by
  by_cases hp : pre = []
  · subst hp; simp
  · have h0 : pre.length ≠ 0 := by simpa using hp
    rw [hw, List.getElem?_append_left (by omega), List.getLast?_eq_getElem? (l := pre)]
    constructor
    · exact fun h => h.2.2
    · intro h
      refine ⟨?_, h0, h⟩
      rintro rfl
      simp at h

theorem levCell_ok (hc : (callCosts ins del sub swap).Nonneg) (p : List τ) (key : τ)
    (pre cs : List τ) (ch : τ) (hw : word = pre ++ ch :: cs) (g : Nat → ℚ)
    (hg : g pre.length = cell (callCosts ins del sub swap) word (p ++ [key]) pre.length) :
    levCell ins del sub swap word p (tableOf (levRowOf ins del sub swap word) p) key ch pre.length
      (tabulate (word.length + 1) g) =
    .ok (cell (callCosts ins del sub swap) word (p ++ [key]) (pre.length + 1)) := by
  have hl : pre.length + 1 < word.length + 1 := by rw [hw]; simp
  have hl' : pre.length < word.length + 1 := by omega
  rw [cell_snoc hw p key hc]
  unfold levCell
  rw [tableOf_last]
  simp only [bind, Except.bind]
  have e1 : pyGet (levRowOf ins del sub swap word p) pre.length =
      .ok (cell (callCosts ins del sub swap) word p pre.length) := pyGet_tabulate _ hl'
  have e2 : pyGet (levRowOf ins del sub swap word p) (pre.length + 1) =
      .ok (cell (callCosts ins del sub swap) word p (pre.length + 1)) := pyGet_tabulate _ hl
  have e3 : pyGet (tabulate (word.length + 1) g) pre.length = .ok (g pre.length) :=
    pyGet_tabulate _ hl'
  rw [e1, e2, e3, hg]
  by_cases hk : key = ch
  · rw [if_pos hk, if_pos hk]
  · rw [if_neg hk, if_neg hk]
    simp only [swap_test hw]
    by_cases hs : pre.getLast? = some key ∧ p.getLast? = some ch
    · rw [if_pos hs, if_pos hs]
      have hp : p ≠ [] := by rintro rfl; simp at hs
      rw [tableOf_last2 _ p hp]
      simp only
      have e4 : pyGet (levRowOf ins del sub swap word p.dropLast) (pre.length - 1) =
        .ok (cell (callCosts ins del sub swap) word p.dropLast (pre.length - 1)) :=
        pyGet_tabulate _ (by omega)
      rw [e4]
      rfl
    · rw [if_neg hs, if_neg hs]
      rfl

theorem levCells_ok (hc : (callCosts ins del sub swap).Nonneg) (p : List τ) (key : τ)
    (pre cs : List τ) (hw : word = pre ++ cs) (g : Nat → ℚ)
    (hg : ∀ j, j ≤ pre.length → g j = cell (callCosts ins del sub swap) word (p ++ [key]) j) :
    levCells ins del sub swap word p (tableOf (levRowOf ins del sub swap word) p) key cs pre.length
      (tabulate (word.length + 1) g) = .ok (levRowOf ins del sub swap word (p ++ [key])) := by
  induction cs generalizing pre g with
  | nil =>
    rw [levCells]
    have hl : word.length = pre.length := by rw [hw]; simp
    unfold levRowOf
    rw [tabulate_congr (fun j hj => hg j (by omega))]
  | cons ch cs ih =>
    have hl : pre.length + 1 < word.length + 1 := by rw [hw]; simp
    have ih' := ih (pre ++ [ch]) (by rw [hw]; simp)
      (Function.update g (pre.length + 1)
        (cell (callCosts ins del sub swap) word (p ++ [key]) (pre.length + 1))) (by
        intro j hj
        rw [List.length_append, List.length_singleton] at hj
        by_cases hj' : j = pre.length + 1
        · subst hj'; simp
        · rw [Function.update_of_ne hj']
          exact hg j (by omega))
    rw [List.length_append, List.length_singleton] at ih'
    rw [levCells, levCell_ok hc p key pre cs ch hw g (hg _ (le_refl _))]
    simp only [bind, Except.bind]
    rw [pySet_tabulate g _ hl]
    exact ih'

theorem levRow_ok (hc : (callCosts ins del sub swap).Nonneg) (p : List τ) (key : τ) :
    levRow ins del sub swap word p (tableOf (levRowOf ins del sub swap word) p) key =
      .ok (levRowOf ins del sub swap word (p ++ [key])) := by
  unfold levRow
  rw [replicate_tabulate, pySet_tabulate _ _ (by omega)]
  simp only [bind, Except.bind]
  refine levCells_ok hc p key [] word rfl _ ?_
  intro j hj
  simp at hj
  subst hj
  rw [cell_zero]
  simp [tableOf, length_tabulate]

/-- A row of `damerau_levenshtein_lookup`. -/
def damRowOf (ins del sub swap : ℚ) (word p : List τ) : List ℚ :=
  tabulate (word.length + 1) (rotated word.length (cell (callCosts ins del sub swap) word p))

theorem damCell_ok (hc : (callCosts ins del sub swap).Nonneg) (p : List τ) (key : τ)
    (pre cs : List τ) (ch : τ) (hw : word = pre ++ ch :: cs) (g : Nat → ℚ)
    (hg : g (if pre.length = 0 then word.length else pre.length - 1) =
      cell (callCosts ins del sub swap) word (p ++ [key]) pre.length) :
    damCell ins del sub swap word p (tableOf (damRowOf ins del sub swap word) p) key ch pre.length
      (tabulate (word.length + 1) g) =
    .ok (cell (callCosts ins del sub swap) word (p ++ [key]) (pre.length + 1)) := by
  have hl : pre.length + 1 < word.length + 1 := by rw [hw]; simp
  rw [cell_snoc hw p key hc]
  unfold damCell
  rw [tableOf_last]
  simp only [bind, Except.bind]
  have e1 : pyGetI (damRowOf ins del sub swap word p) ((pre.length : Int) - 1) =
      .ok (cell (callCosts ins del sub swap) word p pre.length) :=
    pyGetI_rotated _ _ (by omega) (rotated_at _ _ _ (by omega))
  have e2 : pyGet (damRowOf ins del sub swap word p) pre.length =
      .ok (cell (callCosts ins del sub swap) word p (pre.length + 1)) := by
    unfold damRowOf
    rw [pyGet_tabulate _ (by omega)]
    unfold rotated
    rw [if_pos (by omega)]
  have e3 : pyGetI (tabulate (word.length + 1) g) ((pre.length : Int) - 1) =
      .ok (cell (callCosts ins del sub swap) word (p ++ [key]) pre.length) :=
    pyGetI_rotated (cell (callCosts ins del sub swap) word (p ++ [key])) _ (by omega) hg
  rw [e1, e2, e3]
  by_cases hk : key = ch
  · rw [if_pos hk, if_pos hk]
  · rw [if_neg hk, if_neg hk]
    simp only [swap_test hw]
    by_cases hs : pre.getLast? = some key ∧ p.getLast? = some ch
    · rw [if_pos hs, if_pos hs]
      have hp : p ≠ [] := by rintro rfl; simp at hs
      have hpre : 0 < pre.length := by
        cases pre with
        | nil => simp at hs
        | cons a l => simp
      rw [tableOf_last2 _ p hp]
      simp only
      have hi : (pre.length : Int) - 2 = ((pre.length - 1 : Nat) : Int) - 1 := by omega
      have e4 : pyGetI (damRowOf ins del sub swap word p.dropLast) ((pre.length : Int) - 2) =
          .ok (cell (callCosts ins del sub swap) word p.dropLast (pre.length - 1)) := by
        rw [hi]
        exact pyGetI_rotated _ _ (by omega) (rotated_at _ _ _ (by omega))
      rw [e4]
      rfl
    · rw [if_neg hs, if_neg hs]
      rfl

theorem damCells_ok (hc : (callCosts ins del sub swap).Nonneg) (p : List τ) (key : τ)
    (pre cs : List τ) (hw : word = pre ++ cs) (g : Nat → ℚ)
    (hg : ∀ j, j ≤ pre.length → g (if j = 0 then word.length else j - 1) =
      cell (callCosts ins del sub swap) word (p ++ [key]) j) :
    damCells ins del sub swap word p (tableOf (damRowOf ins del sub swap word) p) key cs pre.length
      (tabulate (word.length + 1) g) = .ok (damRowOf ins del sub swap word (p ++ [key])) := by
  induction cs generalizing pre g with
  | nil =>
    rw [damCells]
    have hl : word.length = pre.length := by rw [hw]; simp
    unfold damRowOf
    rw [tabulate_congr]
    intro j hj
    unfold rotated
    split
    · rw [← hg (j + 1) (by omega)]
      simp
    · rw [← hg 0 (by omega)]
      simp only [if_true]
      congr 1
      omega
  | cons ch cs ih =>
    have hl : pre.length < word.length := by rw [hw]; simp
    have ih' := ih (pre ++ [ch]) (by rw [hw]; simp)
      (Function.update g pre.length
        (cell (callCosts ins del sub swap) word (p ++ [key]) (pre.length + 1))) (by
        intro j hj
        rw [List.length_append, List.length_singleton] at hj
        by_cases hj' : j = pre.length + 1
        · subst hj'; simp
        · have h1 := hg j (by omega)
          rw [Function.update_of_ne, h1]
          split <;> omega)
    rw [List.length_append, List.length_singleton] at ih'
    rw [damCells, damCell_ok hc p key pre cs ch hw g (hg _ (le_refl _))]
    simp only [bind, Except.bind]
    rw [pySet_tabulate g _ (by omega)]
    exact ih'

theorem damRow_ok (hc : (callCosts ins del sub swap).Nonneg) (p : List τ) (key : τ) :
    damRow ins del sub swap word p (tableOf (damRowOf ins del sub swap word) p) key =
      .ok (damRowOf ins del sub swap word (p ++ [key])) := by
  unfold damRow
  rw [tableOf_last]
  simp only [bind, Except.bind]
  have e1 : pyGetI (damRowOf ins del sub swap word p) (-1) =
      .ok (cell (callCosts ins del sub swap) word p 0) := by
    unfold damRowOf
    rw [pyGetI_last]
    simp [rotated]
  have e2 : ∀ v : ℚ, pySetI (List.replicate (word.length + 1) (0 : ℚ)) (-1) v =
      .ok (tabulate (word.length + 1) (Function.update (fun _ => 0) word.length v)) := by
    intro v
    unfold pySetI
    have h1 : (-1 : Int) = -((1 : Nat) : Int) := rfl
    rw [List.length_replicate, h1, pyIndex_neg (by omega) (by omega)]
    simp only [Nat.add_sub_cancel]
    rw [replicate_tabulate, pySet_tabulate _ _ (by omega)]
  rw [e1]
  simp only
  rw [e2]
  simp only
  refine damCells_ok hc p key [] word rfl _ ?_
  intro j hj
  simp at hj
  subst hj
  rw [cell_zero, cell_zero]
  simp
  rw [add_mul, one_mul]

end

/-! ### Pruning -/

section
variable {c : Costs ℚ} {word : List τ}

/-- A transposition is not cheaper than the cheapest other operation. -/
def SwapOk (c : Costs ℚ) : Prop := ∀ t, c.swap = some t → min (min c.ins c.del) c.sub ≤ t

theorem prune_step (hc : c.Nonneg) (hs : SwapOk c) (K : ℚ) (p : List τ) (key : τ)
    (h : ∀ j, j ≤ word.length → K < cell c word p j) :
    ∀ j, j ≤ word.length → K < cell c word (p ++ [key]) j := by
  intro j
  induction j with
  | zero =>
    intro _
    have := h 0 (by omega)
    rw [cell_zero] at this ⊢
    have hi := hc.ins
    rw [List.length_append, List.length_singleton]
    push_cast
    rw [add_mul, one_mul]
    linarith
  | succ j ih =>
    intro hj
    have ihj := ih (by omega)
    obtain ⟨pre, ch, cs, hw, rfl⟩ : ∃ pre ch cs, word = pre ++ ch :: cs ∧ pre.length = j :=
      ⟨word.take j, word[j], word.drop (j + 1), by simp, by simp; omega⟩
    rw [cell_snoc hw p key hc]
    have h1 := h pre.length (by omega)
    have h2 := h (pre.length + 1) hj
    have hins := hc.ins
    have hdel := hc.del
    have hsub := hc.sub
    split
    · exact h1
    · rename_i hk
      have hm : K < min (min (cell c word p (pre.length + 1) + c.ins)
          (cell c word (p ++ [key]) pre.length + c.del)) (cell c word p pre.length + c.sub) :=
        lt_min (lt_min (by linarith) (by linarith)) (by linarith)
      simp only
      split
      · rename_i hsw
        split
        · rename_i t ht
          refine lt_min hm ?_
          obtain ⟨q, rfl⟩ : ∃ q, p = q ++ [ch] := by
            obtain ⟨q, hq⟩ := List.getLast?_eq_some_iff.mp hsw.2
            exact ⟨q, hq⟩
          obtain ⟨pre', rfl⟩ : ∃ q, pre = q ++ [key] := by
            obtain ⟨q, hq⟩ := List.getLast?_eq_some_iff.mp hsw.1
            exact ⟨q, hq⟩
          have hst := hs t ht
          rw [List.dropLast_concat, List.length_append, List.length_singleton,
            Nat.add_sub_cancel] at *
          have t0 : word.take pre'.length = pre' := by rw [hw]; simp
          have t1 : word.take (pre'.length + 1) = pre' ++ [key] := by
            rw [hw, List.take_left' (by simp)]
          have t2 : word.take (pre'.length + 1 + 1) = pre' ++ [key, ch] := by
            have : word = (pre' ++ [key, ch]) ++ cs := by rw [hw]; simp
            rw [this, List.take_left' (by simp)]
          have k1 : cell c word (q ++ [ch]) pre'.length ≤ cell c word q pre'.length + c.ins := by
            unfold cell
            rw [List.reverse_append]
            exact dist_ins c _ _ _
          have k2 : cell c word (q ++ [ch]) (pre'.length + 1) ≤
              cell c word q pre'.length + c.sub := by
            unfold cell
            rw [t1, t0, List.reverse_append, List.reverse_append]
            exact dist_sub c _ _ hk
          have k3 : cell c word (q ++ [ch]) (pre'.length + 1 + 1) ≤
              cell c word q pre'.length + c.del := by
            unfold cell
            rw [t2, t0, List.reverse_append, List.reverse_append]
            exact (dist_keep c _ _ ch).trans (dist_del c _ _ key)
          have l1 := h pre'.length (by omega)
          rcases min_choice (min c.ins c.del) c.sub with e | e
          · rcases min_choice c.ins c.del with e' | e'
            · rw [e, e'] at hst; linarith
            · rw [e, e'] at hst; linarith
          · rw [e] at hst; linarith
        · exact hm
      · exact hm

theorem prune (hc : c.Nonneg) (hs : SwapOk c) (K : ℚ) (p q : List τ)
    (h : ∀ j, j ≤ word.length → K < cell c word p j) :
    ∀ j, j ≤ word.length → K < cell c word (p ++ q) j := by
  induction q generalizing p with
  | nil => simpa using h
  | cons x q ih =>
    have := ih (p ++ [x]) (prune_step hc hs K p x h)
    simpa using this

end

omit [DecidableEq τ] in
theorem frameItems_prefix (path : List τ) (f : List (τ × Node τ ν)) :
    ∀ x ∈ frameItems path f, ∃ q, x.1 = path ++ q := by
  induction path, f using frameItems.induct with
  | case1 path => simp [frameItems]
  | case2 path k c rest ih1 ih2 =>
    intro x hx
    rw [frameItems, List.mem_append, List.mem_append] at hx
    rcases hx with h | h | h
    · cases hv : c.val with
      | none => simp [hv] at h
      | some w => simp only [hv, List.mem_singleton] at h; subst h; exact ⟨[k], rfl⟩
    · obtain ⟨q, hq⟩ := ih1 x h
      exact ⟨k :: q, by rw [hq]; simp⟩
    · exact ih2 x h

theorem pyMin_tabulate (n : Nat) (f : Nat → ℚ) :
    ∃ m, pyMin (tabulate (n + 1) f) = .ok m ∧ ∀ k, m ≤ k ↔ ∃ j, j ≤ n ∧ f j ≤ k := by
  unfold pyMin
  cases hm : (tabulate (n + 1) f).min? with
  | none =>
    rw [List.min?_eq_none_iff] at hm
    simp [tabulate] at hm
  | some m =>
    refine ⟨m, rfl, ?_⟩
    obtain ⟨h1, h2⟩ := List.min?_eq_some_iff.mp hm
    intro k
    constructor
    · intro hk
      obtain ⟨j, hj, rfl⟩ := List.mem_map.mp h1
      rw [List.mem_range] at hj
      exact ⟨j, by omega, hk⟩
    · rintro ⟨j, hj, hk⟩
      exact (h2 (f j) (List.mem_map.mpr ⟨j, List.mem_range.mpr (by omega), rfl⟩)).trans hk

/-- What both lookups need to know about their rows. -/
structure RowsOk (c : Costs ℚ) (word : List τ) (R : List τ → List ℚ)
    (iter : List τ → List (List ℚ) → τ → Except PyErr (List ℚ)) (endIdx : Int) : Prop where
  iter : ∀ p key, iter p (tableOf R p) key = .ok (R (p ++ [key]))
  min : ∀ p, ∃ m, pyMin (R p) = .ok m ∧ ∀ k, m ≤ k ↔ ∃ j, j ≤ word.length ∧ cell c word p j ≤ k
  last : ∀ p, pyGetI (R p) endIdx = .ok (cell c word p word.length)

/-- The paths found below a frame, with pruning. -/
def foundP (c : Costs ℚ) (word : List τ) (k : ℚ) (path : List τ) (f : List (τ × Node τ ν)) :
    List (List τ) :=
  match f with
  | [] => []
  | (key, ch) :: rest =>
    (if ∃ j, j < word.length + 1 ∧ cell c word (path ++ [key]) j ≤ k then
      (if cell c word (path ++ [key]) word.length ≤ k ∧ ch.val.isSome then [path ++ [key]]
        else []) ++ foundP c word k (path ++ [key]) ch.kids.reverse
      else []) ++ foundP c word k path rest
termination_by frameWeight f
decreasing_by
  · have h := Node.weight_eq ch
    simp only [frameWeight_reverse]
    simp only [frameWeight, List.map_cons, List.sum_cons] at *
    omega
  · have h := Node.weight_eq ch
    simp only [frameWeight, List.map_cons, List.sum_cons] at *
    omega

theorem lookupLoop_eq {c : Costs ℚ} {word : List τ} {R : List τ → List ℚ}
    {iter : List τ → List (List ℚ) → τ → Except PyErr (List ℚ)} {endIdx : Int}
    (hr : RowsOk c word R iter endIdx) (k : ℚ) (path : List τ)
    (f : List (τ × Node τ ν)) (stack : List (List (τ × Node τ ν)))
    (hlen : stack.length = path.length) :
    lookupLoop iter endIdx k path (tableOf R path) (f :: stack) =
      (if path ≠ [] then lookupLoop iter endIdx k path.dropLast (tableOf R path.dropLast) stack
        else .ok []).map (foundP c word k path f ++ ·) := by
  induction path, f using frameItems.induct generalizing stack with
  | case1 path =>
    rw [lookupLoop, foundP]
    by_cases hp : path = []
    · subst hp
      have : stack.length = 0 := by simpa using hlen
      simp [tableOf, length_tabulate, this, Except.map]
    · simp only [ne_eq, hp, not_false_eq_true, if_true]
      rw [tableOf_dropLast R path hp]
      cases lookupLoop iter endIdx k path.dropLast (tableOf R path.dropLast) stack <;>
        simp [Except.map]
  | case2 path key ch rest ih1 ih2 =>
    rw [lookupLoop, foundP, hr.iter]
    obtain ⟨m, hm, hmk⟩ := hr.min (path ++ [key])
    have hmk' : m ≤ k ↔ ∃ j, j < word.length + 1 ∧ cell c word (path ++ [key]) j ≤ k :=
      (hmk k).trans ⟨fun ⟨j, h, h'⟩ => ⟨j, by omega, h'⟩, fun ⟨j, h, h'⟩ => ⟨j, by omega, h'⟩⟩
    simp only
    rw [hm]
    simp only
    by_cases hk : m ≤ k
    · rw [if_pos hk, if_pos (hmk'.mp hk), hr.last]
      simp only
      rw [← tableOf_snoc, ih1 (rest :: stack) (by simp [hlen])]
      simp only [ne_eq, List.append_eq_nil_iff, List.cons_ne_self, and_false, not_false_eq_true,
        if_true, List.dropLast_concat]
      rw [ih2 stack hlen]
      generalize (if path ≠ [] then lookupLoop iter endIdx k path.dropLast
        (tableOf R path.dropLast) stack else Except.ok []) = r
      cases r with
      | error e => rfl
      | ok out => simp only [Except.map, List.append_assoc]
    · rw [if_neg hk, if_neg (fun h => hk (hmk'.mpr h)), ih2 stack hlen]
      simp

theorem lookupLoop_root {c : Costs ℚ} {word : List τ} {R : List τ → List ℚ}
    {iter : List τ → List (List ℚ) → τ → Except PyErr (List ℚ)} {endIdx : Int}
    (hr : RowsOk c word R iter endIdx) (k : ℚ) (root : Node τ ν) :
    lookupLoop iter endIdx k [] [R []] [root.kids.reverse] =
      .ok (foundP c word k [] root.kids.reverse) := by
  have h := lookupLoop_eq hr k [] root.kids.reverse [] rfl
  have ht : tableOf R ([] : List τ) = [R []] := by simp [tableOf, tabulate]
  rw [ht] at h
  rw [h]
  simp [Except.map]

/-- The paths found below a frame, without pruning. -/
def found (c : Costs ℚ) (word : List τ) (k : ℚ) (l : List (List τ × ν)) : List (List τ) :=
  (l.map Prod.fst).filter (fun p => decide (cell c word p word.length ≤ k))

theorem found_append (c : Costs ℚ) (word : List τ) (k : ℚ) (a b : List (List τ × ν)) :
    found c word k (a ++ b) = found c word k a ++ found c word k b := by
  simp [found]

theorem foundP_eq {c : Costs ℚ} {word : List τ} (hc : c.Nonneg)
    (hs : SwapOk c) (k : ℚ) (path : List τ) (f : List (τ × Node τ ν)) :
    foundP c word k path f = found c word k (frameItems path f) := by
  induction path, f using frameItems.induct with
  | case1 path => simp [foundP, frameItems, found]
  | case2 path key ch rest ih1 ih2 =>
    rw [foundP, frameItems, ih1, ih2, found_append, found_append]
    by_cases hk : ∃ j, j < word.length + 1 ∧ cell c word (path ++ [key]) j ≤ k
    · rw [if_pos hk, ← List.append_assoc]
      congr 2
      by_cases hl : cell c word (path ++ [key]) word.length ≤ k
      · rcases Option.eq_none_or_eq_some ch.val with hv | ⟨v, hv⟩ <;> simp [hv, found, hl]
      · rcases Option.eq_none_or_eq_some ch.val with hv | ⟨v, hv⟩ <;> simp [hv, found, hl]
    · rw [if_neg hk]
      have hall : ∀ j, j ≤ word.length → k < cell c word (path ++ [key]) j := by
        intro j hj
        by_contra hn
        exact hk ⟨j, by omega, not_lt.mp hn⟩
      have hnone : ∀ q, ¬ cell c word (path ++ [key] ++ q) word.length ≤ k :=
        fun q => not_le.mpr (prune hc hs k (path ++ [key]) q hall _ (le_refl _))
      have e1 : found c word k (frameItems (path ++ [key]) ch.kids.reverse) = [] := by
        unfold found
        rw [List.filter_eq_nil_iff]
        intro p hp
        obtain ⟨x, hx, rfl⟩ := List.mem_map.mp hp
        obtain ⟨q, hq⟩ := frameItems_prefix _ _ x hx
        rw [hq]
        simpa using hnone q
      have hn0 := hnone []
      rw [List.append_nil] at hn0
      rw [e1]
      rcases Option.eq_none_or_eq_some ch.val with hv | ⟨v, hv⟩
      · simp [hv, found]
      · simp [hv, found, hn0]

theorem foundP_items {c : Costs ℚ} {word : List τ} (hc : c.Nonneg) (hs : SwapOk c) (k : ℚ)
    (root : Node τ ν) :
    foundP c word k [] root.kids.reverse =
      (root.items.map Prod.fst).filter (fun p => decide (dist c word p ≤ k)) := by
  rw [foundP_eq hc hs, Node.items_eq, found]
  refine List.filter_congr ?_
  intro p _
  unfold cell
  rw [List.take_length, dist_reverse]

/-- Everything found is stored and within the bound, even if pruning loses keys. -/
theorem foundP_sublist (c : Costs ℚ) (word : List τ) (k : ℚ) (path : List τ)
    (f : List (τ × Node τ ν)) :
    (foundP c word k path f).Sublist (found c word k (frameItems path f)) := by
  induction path, f using frameItems.induct with
  | case1 path => simp [foundP, frameItems, found]
  | case2 path key ch rest ih1 ih2 =>
    rw [foundP, frameItems, found_append, found_append, ← List.append_assoc]
    refine List.Sublist.append ?_ ih2
    split
    · refine List.Sublist.append ?_ ih1
      by_cases hl : cell c word (path ++ [key]) word.length ≤ k
      · rcases Option.eq_none_or_eq_some ch.val with hv | ⟨v, hv⟩ <;> simp [hv, found, hl]
      · rcases Option.eq_none_or_eq_some ch.val with hv | ⟨v, hv⟩ <;> simp [hv, found, hl]
    · exact List.nil_sublist _

theorem levRowsOk {ins del sub swap : ℚ} {word : List τ}
    (hc : (callCosts ins del sub swap).Nonneg) :
    RowsOk (callCosts ins del sub swap) word (levRowOf ins del sub swap word)
      (levRow ins del sub swap word) (-1) := by
  refine ⟨fun p key => levRow_ok hc p key, fun p => pyMin_tabulate _ _, fun p => ?_⟩
  unfold levRowOf
  rw [pyGetI_last]

theorem damRowsOk {ins del sub swap : ℚ} {word : List τ}
    (hc : (callCosts ins del sub swap).Nonneg) (hw : word ≠ []) :
    RowsOk (callCosts ins del sub swap) word (damRowOf ins del sub swap word)
      (damRow ins del sub swap word) (-2) := by
  refine ⟨fun p key => damRow_ok hc p key, fun p => ?_, fun p => ?_⟩
  · obtain ⟨m, h1, h2⟩ := pyMin_tabulate word.length
      (rotated word.length (cell (callCosts ins del sub swap) word p))
    refine ⟨m, h1, fun k => (h2 k).trans ?_⟩
    constructor
    · rintro ⟨j, hj, hk⟩
      unfold rotated at hk
      split at hk
      · exact ⟨j + 1, by omega, hk⟩
      · exact ⟨0, by omega, hk⟩
    · rintro ⟨j, hj, hk⟩
      refine ⟨if j = 0 then word.length else j - 1, by split <;> omega, ?_⟩
      rw [rotated_at _ _ _ hj]
      exact hk
  · unfold damRowOf
    obtain ⟨n, hn⟩ : ∃ n, word.length = n + 1 := ⟨word.length - 1, by
      have := List.length_pos_of_ne_nil hw; omega⟩
    rw [hn, pyGetI_last2]
    simp [rotated]

theorem levFirst (ins del sub swap : ℚ) (word : List τ) :
    (List.range (word.length + 1)).map (fun d : Nat => (d : ℚ) * del) =
      levRowOf ins del sub swap word [] := by
  unfold levRowOf tabulate
  refine List.map_congr_left ?_
  intro j hj
  rw [cell_nil _ _ _ (by rw [List.mem_range] at hj; omega)]

theorem damFirst (ins del sub swap : ℚ) (word : List τ) :
    (List.range' 1 word.length).map (fun d : Nat => (d : ℚ) * del) ++ [0] =
      damRowOf ins del sub swap word [] := by
  unfold damRowOf tabulate
  rw [List.range_succ, List.map_append, List.range'_eq_map_range, List.map_map]
  congr 1
  · refine List.map_congr_left ?_
    intro j hj
    rw [List.mem_range] at hj
    simp only [Function.comp_apply, rotated, if_pos hj]
    rw [cell_nil _ _ _ (by omega), add_comm 1 j]
  · simp [rotated, cell_zero]

end Trie
end Verif
