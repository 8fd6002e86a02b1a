import Verif.Edit.Model
import Verif.Edit.Dist

/-!
# Lemmas about the edit distance tables

Helper lemmas only; the property theorems are in `Verif.Edit.Props`.
-/

namespace Verif
namespace Edit

open EditSpec

variable {α : Type} [DecidableEq α]

theorem unit_nonneg : unitCosts.Nonneg :=
  ⟨Nat.zero_le _, Nat.zero_le _, Nat.zero_le _, fun t ht => by cases ht⟩
theorem unitT_nonneg : unitCostsT.Nonneg :=
  ⟨Nat.zero_le _, Nat.zero_le _, Nat.zero_le _, fun _ _ => Nat.zero_le _⟩

theorem dist_snoc_rev (c : Costs Nat) (p q : List α) (a b : α) :
    dist c (p ++ [a]) (q ++ [b]) = dist c (a :: p.reverse) (b :: q.reverse) := by
  rw [← dist_reverse]
  simp

theorem unit_snoc (p q : List α) (a b : α) :
    dist unitCosts (p ++ [a]) (q ++ [b]) =
      min (min (dist unitCosts (p ++ [a]) q + 1) (dist unitCosts p (q ++ [b]) + 1))
        (dist unitCosts p q + if a ≠ b then 1 else 0) := by
  rw [dist_snoc_rev, dist_cons_cons]
  have h1 : dist unitCosts (a :: p.reverse) q.reverse = dist unitCosts (p ++ [a]) q := by
    rw [← dist_reverse]; simp
  have h2 : dist unitCosts p.reverse (b :: q.reverse) = dist unitCosts p (q ++ [b]) := by
    rw [← dist_reverse]; simp
  simp only [unitCosts] at h1 h2 ⊢
  rw [h1, h2, dist_reverse]
  by_cases hab : a = b <;> simp [hab]

theorem unit_snoc_same (p q : List α) (a : α) :
    dist unitCosts (p ++ [a]) (q ++ [a]) = dist unitCosts p q := by
  rw [dist_snoc_rev, dist_same unit_nonneg, dist_reverse]

theorem unit_snoc_diff (p q : List α) (a b : α) (h : a ≠ b) :
    dist unitCosts (p ++ [a]) (q ++ [b]) =
      1 + min (min (dist unitCosts p q) (dist unitCosts (p ++ [a]) q))
        (dist unitCosts p (q ++ [b])) := by
  rw [unit_snoc]
  simp only [ne_eq, h, not_false_eq_true, if_true]
  omega

theorem unit_nil_right (u : List α) : dist unitCosts u [] = u.length := by
  rw [dist_nil_right]; simp [unitCosts]
theorem unit_nil_left (u : List α) : dist unitCosts [] u = u.length := by
  rw [dist_nil_left]; simp [unitCosts]

theorem unit_symm (u v : List α) : dist unitCosts u v = dist unitCosts v u :=
  dist_symm unitCosts v u

theorem range_tabulate (n : Nat) : List.range n = tabulate n (fun j => j) := by simp [tabulate]

omit [DecidableEq α] in
theorem take_split {s pre cs : List α} {x : α} (h : s = pre ++ x :: cs) :
    s.take pre.length = pre ∧ s.take (pre.length + 1) = pre ++ [x] := by
  subst h
  refine ⟨by simp, ?_⟩
  have : pre ++ x :: cs = (pre ++ [x]) ++ cs := by simp
  rw [this, List.take_left' (by simp)]

/-! ### `edit_distance` -/

/-- Row of the table of `edit_distance` for the prefix `q` of the second string. -/
def edRowOf (s1 q : List α) (n : Nat) : List Nat :=
  tabulate n (fun j => dist unitCosts (s1.take j) q)

theorem edCells_ok (s1 q : List α) (c2 : α) (pre cs : List α) (h : s1 = pre ++ cs) :
    edCells c2 (edRowOf s1 q (s1.length + 1)) cs pre.length
      (edRowOf s1 (q ++ [c2]) (pre.length + 1)) = .ok (edRowOf s1 (q ++ [c2]) (s1.length + 1)) := by
  induction cs generalizing pre with
  | nil =>
    rw [edCells, h]
    simp
  | cons c1 cs ih =>
    have hl : pre.length < s1.length := by rw [h]; simp
    obtain ⟨t1, t2⟩ := take_split h
    have ih' := ih (pre ++ [c1]) (by rw [h]; simp)
    rw [List.length_append, List.length_singleton] at ih'
    have e1 : pyGet (edRowOf s1 q (s1.length + 1)) pre.length = .ok (dist unitCosts pre q) := by
      unfold edRowOf
      rw [pyGet_tabulate _ (by omega), t1]
    have e2 : pyGet (edRowOf s1 q (s1.length + 1)) (pre.length + 1) =
        .ok (dist unitCosts (pre ++ [c1]) q) := by
      unfold edRowOf
      rw [pyGet_tabulate _ (by omega), t2]
    have e3 : pyGetI (edRowOf s1 (q ++ [c2]) (pre.length + 1)) (-1) =
        .ok (dist unitCosts pre (q ++ [c2])) := by
      unfold edRowOf
      rw [pyGetI_last, t1]
    have e4 : edRowOf s1 (q ++ [c2]) (pre.length + 1 + 1) =
        edRowOf s1 (q ++ [c2]) (pre.length + 1) ++ [dist unitCosts (pre ++ [c1]) (q ++ [c2])] := by
      unfold edRowOf
      rw [tabulate_succ, t2]
    rw [edCells]
    simp only [bind, Except.bind, e1, e2, e3]
    by_cases hc : c1 = c2
    · rw [if_pos hc]
      subst hc
      rw [e4, unit_snoc_same] at ih'
      exact ih'
    · rw [if_neg hc]
      rw [e4, unit_snoc_diff _ _ _ _ hc] at ih'
      exact ih'

theorem edRows_ok (s1 : List α) (cs q : List α) :
    edRows s1 cs q.length (edRowOf s1 q (s1.length + 1)) =
      .ok (edRowOf s1 (q ++ cs) (s1.length + 1)) := by
  induction cs generalizing q with
  | nil => simp [edRows]
  | cons c2 cs ih =>
    rw [edRows]
    have h := edCells_ok s1 q c2 [] s1 rfl
    have h0 : edRowOf s1 (q ++ [c2]) (([] : List α).length + 1) = [q.length + 1] := by
      simp [edRowOf, tabulate, unit_nil_left]
    rw [h0] at h
    simp only [bind, Except.bind]
    rw [List.length_nil] at h
    rw [h]
    have := ih (q ++ [c2])
    rw [List.length_append, List.length_singleton] at this
    simpa using this

theorem edFirst (s1 : List α) : List.range (s1.length + 1) = edRowOf s1 [] (s1.length + 1) := by
  rw [range_tabulate]
  refine tabulate_congr ?_
  intro j hj
  rw [unit_nil_right]
  simp
  omega

theorem editDistance_ok (s1 s2 : List α) : editDistance s1 s2 = .ok (dist unitCosts s1 s2) := by
  have key : ∀ a b : List α, (do
      let distances ← edRows a b 0 (List.range (a.length + 1))
      pyGetI distances (-1)) = Except.ok (ε := PyErr) (dist unitCosts a b) := by
    intro a b
    have := edRows_ok a b []
    rw [List.length_nil] at this
    rw [edFirst, this]
    simp only [bind, Except.bind]
    unfold edRowOf
    rw [pyGetI_last, List.take_length, List.nil_append]
  unfold editDistance
  simp only
  split
  · rw [key, unit_symm]
  · exact key _ _

/-! ### `levenshtein` -/

/-- Row of the table of `levenshtein` for the prefix `p` of the first string. -/
def levenRowOf (s2 p : List α) (n : Nat) : List Nat :=
  tabulate n (fun j => dist unitCosts p (s2.take j))

theorem levenCells_ok (s2 p : List α) (c1 : α) (pre cs : List α) (h : s2 = pre ++ cs) :
    levenCells c1 (levenRowOf s2 p (s2.length + 1)) cs pre.length
      (levenRowOf s2 (p ++ [c1]) (pre.length + 1)) =
      .ok (levenRowOf s2 (p ++ [c1]) (s2.length + 1)) := by
  induction cs generalizing pre with
  | nil =>
    rw [levenCells, h]
    simp
  | cons c2 cs ih =>
    have hl : pre.length < s2.length := by rw [h]; simp
    obtain ⟨t1, t2⟩ := take_split h
    have ih' := ih (pre ++ [c2]) (by rw [h]; simp)
    rw [List.length_append, List.length_singleton] at ih'
    have e1 : pyGet (levenRowOf s2 p (s2.length + 1)) pre.length = .ok (dist unitCosts p pre) := by
      unfold levenRowOf
      rw [pyGet_tabulate _ (by omega), t1]
    have e2 : pyGet (levenRowOf s2 p (s2.length + 1)) (pre.length + 1) =
        .ok (dist unitCosts p (pre ++ [c2])) := by
      unfold levenRowOf
      rw [pyGet_tabulate _ (by omega), t2]
    have e3 : pyGet (levenRowOf s2 (p ++ [c1]) (pre.length + 1)) pre.length =
        .ok (dist unitCosts (p ++ [c1]) pre) := by
      unfold levenRowOf
      rw [pyGet_tabulate _ (by omega), t1]
    have e4 : levenRowOf s2 (p ++ [c1]) (pre.length + 1 + 1) =
        levenRowOf s2 (p ++ [c1]) (pre.length + 1) ++
          [dist unitCosts (p ++ [c1]) (pre ++ [c2])] := by
      unfold levenRowOf
      rw [tabulate_succ, t2]
    rw [levenCells]
    simp only [bind, Except.bind, e1, e2, e3]
    rw [e4, unit_snoc] at ih'
    rw [min_comm (dist unitCosts p (pre ++ [c2]) + 1)]
    exact ih'

theorem levenRows_ok (s2 : List α) (cs p : List α) :
    levenRows s2 cs p.length (levenRowOf s2 p (s2.length + 1)) =
      .ok (levenRowOf s2 (p ++ cs) (s2.length + 1)) := by
  induction cs generalizing p with
  | nil => simp [levenRows]
  | cons c1 cs ih =>
    rw [levenRows]
    have h := levenCells_ok s2 p c1 [] s2 rfl
    have h0 : levenRowOf s2 (p ++ [c1]) (([] : List α).length + 1) = [p.length + 1] := by
      simp [levenRowOf, tabulate, unit_nil_right]
    rw [h0] at h
    simp only [bind, Except.bind]
    rw [List.length_nil] at h
    rw [h]
    have := ih (p ++ [c1])
    rw [List.length_append, List.length_singleton] at this
    simpa using this

theorem levenFirst (s2 : List α) : List.range (s2.length + 1) = levenRowOf s2 [] (s2.length + 1) := by
  rw [range_tabulate]
  refine tabulate_congr ?_
  intro j hj
  rw [unit_nil_left]
  simp
  omega

theorem levenshteinBody_ok (s1 s2 : List α) :
    levenshteinBody s1 s2 = .ok (dist unitCosts s1 s2) := by
  unfold levenshteinBody
  split
  · rename_i h
    rw [h, unit_nil_left]
  · have := levenRows_ok s2 s1 []
    rw [List.length_nil] at this
    rw [levenFirst, this]
    simp only [bind, Except.bind]
    unfold levenRowOf
    rw [pyGetI_last, List.take_length, List.nil_append]

theorem levenshtein_ok (s1 s2 : List α) : levenshtein s1 s2 = .ok (dist unitCosts s1 s2) := by
  unfold levenshtein
  split
  · rw [if_neg (by omega), levenshteinBody_ok, unit_symm]
  · exact levenshteinBody_ok _ _

/-! ### `damerau_levenshtein_distance` -/

theorem unitT_nil_right (u : List α) : dist unitCostsT u [] = u.length := by
  rw [dist_nil_right]; simp [unitCostsT]
theorem unitT_nil_left (u : List α) : dist unitCostsT [] u = u.length := by
  rw [dist_nil_left]; simp [unitCostsT]

theorem unitT_snoc (p q : List α) (a b : α) :
    dist unitCostsT (p ++ [a]) (q ++ [b]) =
      let m := min (min (dist unitCostsT p (q ++ [b]) + 1) (dist unitCostsT (p ++ [a]) q + 1))
        (dist unitCostsT p q + if a ≠ b then 1 else 0)
      if p.getLast? = some b ∧ q.getLast? = some a ∧ a ≠ b then
        min m (dist unitCostsT p.dropLast q.dropLast + 1)
      else m := by
  have h1 : dist unitCostsT (a :: p.reverse) q.reverse = dist unitCostsT (p ++ [a]) q := by
    rw [← dist_reverse]; simp
  have h2 : dist unitCostsT p.reverse (b :: q.reverse) = dist unitCostsT p (q ++ [b]) := by
    rw [← dist_reverse]; simp
  have h3 : dist unitCostsT p.reverse.tail q.reverse.tail =
      dist unitCostsT p.dropLast q.dropLast := by
    rw [List.tail_reverse, List.tail_reverse, dist_reverse]
  rw [dist_snoc_rev]
  by_cases hab : a = b
  · subst hab
    rw [dist_same unitT_nonneg, dist_reverse]
    have k1 := dist_tail_left unitT_nonneg a p.reverse q.reverse
    have k2 := dist_tail_right unitT_nonneg a p.reverse q.reverse
    rw [h1, dist_reverse] at k1
    rw [h2, dist_reverse] at k2
    simp only [unitCostsT] at k1 k2 ⊢
    simp
    omega
  · rw [dist_diff _ hab]
    simp only [List.head?_reverse]
    have e : (unitCostsT.swap) = some 1 := rfl
    simp only [e, h1, h2, h3, dist_reverse]
    have e1 : unitCostsT.ins = 1 := rfl
    have e2 : unitCostsT.del = 1 := rfl
    have e3 : unitCostsT.sub = 1 := rfl
    simp only [e1, e2, e3]
    have hc : (p.getLast? = some b ∧ q.getLast? = some a ∧ a ≠ b) ↔
        (p.getLast? = some b ∧ q.getLast? = some a) := by tauto
    rw [if_pos hab]
    by_cases hs : p.getLast? = some b ∧ q.getLast? = some a
    · rw [if_pos hs, if_pos (hc.mpr hs)]
      omega
    · rw [if_neg hs, if_neg (fun h => hs (hc.mp h))]
      omega

/-- Row of the table for the prefix `p` of the first sequence, first entry last. -/
def dlRowOf (s2 p : List α) : List Nat :=
  tabulate (s2.length + 1) (rotated s2.length (fun j => dist unitCostsT p (s2.take j)))

theorem dlRow_get (s2 p : List α) (j : Nat) (h : j ≤ s2.length) :
    pyGetI (dlRowOf s2 p) ((j : Int) - 1) = .ok (dist unitCostsT p (s2.take j)) :=
  pyGetI_rotated (fun j => dist unitCostsT p (s2.take j)) _ h (rotated_at _ _ _ h)

/-- The row before the current one, if any. -/
def dlPrev (s2 p : List α) : Option (List Nat) :=
  if p = [] then none else some (dlRowOf s2 p.dropLast)

theorem dlCell_ok (s1 s2 p cs1 : List α) (a : α) (h1 : s1 = p ++ a :: cs1) (pre cs : List α) (b : α)
    (h2 : s2 = pre ++ b :: cs) (g : Nat → Nat)
    (hg : g (if pre.length = 0 then s2.length else pre.length - 1) =
      dist unitCostsT (p ++ [a]) pre) :
    dlCell s1 s2 (dlPrev s2 p) (dlRowOf s2 p) p.length pre.length (tabulate (s2.length + 1) g) =
      .ok (dist unitCostsT (p ++ [a]) (pre ++ [b])) := by
  have hl : pre.length < s2.length := by rw [h2]; simp
  obtain ⟨t1, t2⟩ := take_split h2
  have e1 : pyGet s1 p.length = .ok a := pyGet_ok' (by rw [h1]; simp)
  have e2 : pyGet s2 pre.length = .ok b := pyGet_ok' (by rw [h2]; simp)
  have e3 : pyGet (dlRowOf s2 p) pre.length = .ok (dist unitCostsT p (pre ++ [b])) := by
    unfold dlRowOf
    rw [pyGet_tabulate _ (by omega)]
    unfold rotated
    rw [if_pos hl]
    simp only [t2]
  have e4 : pyGetI (dlRowOf s2 p) ((pre.length : Int) - 1) = .ok (dist unitCostsT p pre) := by
    rw [dlRow_get _ _ _ hl.le, t1]
  have e5 : pyGetI (tabulate (s2.length + 1) g) ((pre.length : Int) - 1) =
      .ok (dist unitCostsT (p ++ [a]) pre) := by
    have := pyGetI_rotated (n := s2.length) (j := pre.length)
      (fun j => dist unitCostsT (p ++ [a]) (s2.take j)) g hl.le (by simp only [t1]; exact hg)
    rw [this, t1]
  have htest : (p.length > 0 ∧ pre.length > 0 ∧ some a = s2[pre.length - 1]? ∧
      s1[p.length - 1]? = some b ∧ a ≠ b) ↔
      (p.getLast? = some b ∧ pre.getLast? = some a ∧ a ≠ b) := by
    have g1 : 0 < p.length → s1[p.length - 1]? = p.getLast? := by
      intro h
      rw [h1, List.getElem?_append_left (by omega), List.getLast?_eq_getElem?]
    have g2 : 0 < pre.length → s2[pre.length - 1]? = pre.getLast? := by
      intro h
      rw [h2, List.getElem?_append_left (by omega), List.getLast?_eq_getElem?]
    constructor
    · rintro ⟨k1, k2, k3, k4, k5⟩
      exact ⟨by rw [← g1 k1, k4], by rw [← g2 k2, ← k3], k5⟩
    · rintro ⟨k1, k2, k3⟩
      have k4 : 0 < p.length := by
        cases p with
        | nil => simp at k1
        | cons _ _ => simp
      have k5 : 0 < pre.length := by
        cases pre with
        | nil => simp at k2
        | cons _ _ => simp
      exact ⟨k4, k5, by rw [g2 k5, k2], by rw [g1 k4, k1], k3⟩
  unfold dlCell
  simp only [bind, Except.bind, e1, e2, e3, e4, e5, htest]
  rw [unitT_snoc]
  simp only
  by_cases hs : p.getLast? = some b ∧ pre.getLast? = some a ∧ a ≠ b
  · rw [if_pos hs, if_pos hs]
    have hp : p ≠ [] := by rintro rfl; simp at hs
    have hpre : 0 < pre.length := by
      cases pre with
      | nil => simp at hs
      | cons _ _ => simp
    unfold dlPrev
    rw [if_neg hp]
    simp only
    have hi : (pre.length : Int) - 2 = ((pre.length - 1 : Nat) : Int) - 1 := by omega
    have t3 : s2.take (pre.length - 1) = pre.dropLast := by
      rw [List.dropLast_eq_take, h2, List.take_append_of_le_length (by omega)]
    rw [hi, dlRow_get _ _ _ (by omega), t3]
    rfl
  · rw [if_neg hs, if_neg hs]
    rfl

theorem dlCells_ok (s1 s2 p cs1 : List α) (a : α) (h1 : s1 = p ++ a :: cs1) (pre cs : List α)
    (h2 : s2 = pre ++ cs) (g : Nat → Nat)
    (hg : ∀ j, j ≤ pre.length → g (if j = 0 then s2.length else j - 1) =
      dist unitCostsT (p ++ [a]) (s2.take j)) :
    dlCells s1 s2 (dlPrev s2 p) (dlRowOf s2 p) p.length cs.length pre.length
      (tabulate (s2.length + 1) g) = .ok (dlRowOf s2 (p ++ [a])) := by
  induction cs generalizing pre g with
  | nil =>
    rw [List.length_nil, dlCells]
    have hl : s2.length = pre.length := by rw [h2]; simp
    unfold dlRowOf
    rw [tabulate_congr]
    intro j hj
    unfold rotated
    split
    · simp only [← hg (j + 1) (by omega)]
      simp
    · simp only [← hg 0 (by omega)]
      simp only [if_true]
      congr 1
      omega
  | cons b cs ih =>
    have hl : pre.length < s2.length := by rw [h2]; simp
    obtain ⟨t1, t2⟩ := take_split h2
    have ih' := ih (pre ++ [b]) (by rw [h2]; simp)
      (Function.update g pre.length (dist unitCostsT (p ++ [a]) (pre ++ [b]))) (by
        intro j hj
        rw [List.length_append, List.length_singleton] at hj
        by_cases hj' : j = pre.length + 1
        · subst hj'; simp [t2]
        · have h1 := hg j (by omega)
          rw [Function.update_of_ne, h1]
          split <;> omega)
    rw [List.length_append, List.length_singleton] at ih'
    rw [List.length_cons, dlCells, dlCell_ok s1 s2 p cs1 a h1 pre cs b h2 g
      (by rw [hg _ (le_refl _), t1])]
    simp only [bind, Except.bind]
    rw [pySet_tabulate g _ (by omega)]
    exact ih'

theorem dlRows_ok (s1 s2 : List α) (cs p : List α) (h : s1 = p ++ cs) :
    dlRows s1 s2 cs.length p.length (dlPrev s2 p) (dlRowOf s2 p) = .ok (dlRowOf s2 s1) := by
  induction cs generalizing p with
  | nil => rw [List.length_nil, dlRows, h, List.append_nil]
  | cons a cs ih =>
    rw [List.length_cons, dlRows]
    have hfirst : List.replicate s2.length 0 ++ [p.length + 1] =
        tabulate (s2.length + 1) (fun j => if j < s2.length then 0 else p.length + 1) := by
      rw [tabulate_succ, replicate_tabulate]
      congr 1
      · exact tabulate_congr (fun j hj => by rw [if_pos hj])
      · simp
    have hc := dlCells_ok s1 s2 p cs a h [] s2 rfl
      (fun j => if j < s2.length then 0 else p.length + 1) (by
        intro j hj
        have : j = 0 := by simpa using hj
        subst this
        simp [unitT_nil_right])
    rw [List.length_nil] at hc
    rw [hfirst, hc]
    simp only [bind, Except.bind]
    have ih' := ih (p ++ [a]) (by rw [h]; simp)
    unfold dlPrev at ih'
    rw [if_neg (by simp), List.dropLast_concat, List.length_append, List.length_singleton] at ih'
    exact ih'

theorem damerauDistance_ok (s1 s2 : List α) :
    damerauDistance s1 s2 = .ok (dist unitCostsT s1 s2) := by
  unfold damerauDistance
  have hfirst : List.range' 1 s2.length ++ [0] = dlRowOf s2 [] := by
    unfold dlRowOf
    rw [tabulate_succ]
    congr 1
    · rw [List.range'_eq_map_range]
      unfold tabulate
      refine List.map_congr_left ?_
      intro j hj
      rw [List.mem_range] at hj
      unfold rotated
      rw [if_pos hj]
      simp only [unitT_nil_left, List.length_take]
      omega
    · simp [rotated, unitT_nil_left]
  have := dlRows_ok s1 s2 s1 [] rfl
  unfold dlPrev at this
  rw [if_pos rfl, List.length_nil] at this
  rw [hfirst, this]
  simp only [bind, Except.bind]
  rw [dlRow_get _ _ _ (le_refl _), List.take_length]

end Edit
end Verif
