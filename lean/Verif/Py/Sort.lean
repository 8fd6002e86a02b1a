import Mathlib.Data.List.Sort
import Mathlib.Data.List.Nodup
import Mathlib.Data.List.Count
import Mathlib.Data.List.Perm.Subperm

/-!
# Stable descending sort (`sorted(..., reverse=True)`, `Counter.most_common`)
-/

namespace Verif

variable {α S : Type} [LinearOrder S]

/-- Python's `sorted(l, key=key, reverse=True)`: descending, equal elements keep their order. -/
def sortDesc (key : α → S) (l : List α) : List α := l.insertionSort (fun a b => key b ≤ key a)

/-- `Counter(items).most_common(k)` (`heapq.nlargest` is equivalent to
`sorted(items, key=itemgetter(1), reverse=True)[:k]`). -/
def mostCommon {κ : Type} (items : List (κ × S)) (k : Nat) : List (κ × S) :=
  (sortDesc Prod.snd items).take k

theorem sortDesc_perm (key : α → S) (l : List α) : (sortDesc key l).Perm l :=
  List.perm_insertionSort _ _

theorem mem_sortDesc {key : α → S} {l : List α} {x : α} : x ∈ sortDesc key l ↔ x ∈ l :=
  (sortDesc_perm key l).mem_iff

theorem length_sortDesc (key : α → S) (l : List α) : (sortDesc key l).length = l.length :=
  (sortDesc_perm key l).length_eq

theorem sortDesc_pairwise (key : α → S) (l : List α) :
    (sortDesc key l).Pairwise (fun a b => key b ≤ key a) := by
  have : Std.Total (fun a b : α => key b ≤ key a) := ⟨fun a b => le_total (key b) (key a)⟩
  have : IsTrans α (fun a b : α => key b ≤ key a) := ⟨fun a b c h1 h2 => le_trans h2 h1⟩
  exact List.pairwise_insertionSort _ _

/-- Stability: two elements with equal keys keep their relative order. -/
theorem sortDesc_stable (key : α → S) (l : List α) (c : S) :
    (sortDesc key l).filter (fun x => key x = c) = l.filter (fun x => key x = c) := by
  have ins : ∀ (a : α) (l : List α),
      (l.orderedInsert (fun a b => key b ≤ key a) a).filter (fun x => key x = c) =
        (a :: l).filter (fun x => key x = c) := by
    intro a l
    induction l with
    | nil => rfl
    | cons b l ih =>
      rw [List.orderedInsert]
      split
      · rfl
      · rename_i h
        rw [List.filter_cons, ih]
        by_cases ha : key a = c
        · have hb : key b ≠ c := by
            intro hb; exact h (by rw [ha, hb])
          simp [ha, hb]
        · by_cases hb : key b = c <;> simp [ha, hb]
  induction l with
  | nil => rfl
  | cons a l ih =>
    have : sortDesc key (a :: l) = (sortDesc key l).orderedInsert (fun a b => key b ≤ key a) a := rfl
    rw [this, ins, List.filter_cons, ih, List.filter_cons]

/-- Elements of the first `k` dominate the elements after them. -/
theorem take_drop_dominate {key : α → S} {l : List α} (h : l.Pairwise (fun a b => key b ≤ key a))
    {k : Nat} {x y : α} (hx : x ∈ l.take k) (hy : y ∈ l.drop k) : key y ≤ key x := by
  rw [← List.take_append_drop k l, List.pairwise_append] at h
  exact h.2.2 x hx y hy

theorem top_dominates {key : α → S} {l : List α} {k : Nat} {x y : α}
    (hx : x ∈ (sortDesc key l).take k) (hy : y ∈ l) (hn : y ∉ (sortDesc key l).take k) :
    key y ≤ key x := by
  have hy' : y ∈ sortDesc key l := mem_sortDesc.2 hy
  rw [← List.take_append_drop k (sortDesc key l), List.mem_append] at hy'
  exact take_drop_dominate (sortDesc_pairwise key l) hx (hy'.resolve_left hn)

/-- The element at position `j` of a descending list is at most `u` iff at most `j` elements
exceed `u`. -/
theorem getElem_le_iff {l : List S} (h : l.Pairwise (fun a b => b ≤ a)) {j : Nat}
    (hj : j < l.length) (u : S) :
    l[j] ≤ u ↔ (l.filter (fun x => u < x)).length ≤ j := by
  constructor
  · intro hu
    have h0 : (l.drop j).filter (fun x => u < x) = [] := by
      rw [List.filter_eq_nil_iff]
      intro x hx
      rw [List.drop_eq_getElem_cons hj, List.mem_cons] at hx
      have hx' : x ≤ l[j] := by
        rcases hx with rfl | hx
        · exact le_refl _
        · have h2 := h
          rw [← List.take_append_drop j l, List.pairwise_append, List.drop_eq_getElem_cons hj,
            List.pairwise_cons] at h2
          exact h2.2.1.1 x hx
      simpa using le_trans hx' hu
    conv_lhs => rw [← List.take_append_drop j l, List.filter_append, h0, List.append_nil]
    exact le_trans (List.length_filter_le _ _) (by simp)
  · intro hc
    by_contra hu
    rw [not_le] at hu
    have h1 : (l.take (j + 1)).filter (fun x => u < x) = l.take (j + 1) := by
      rw [List.filter_eq_self]
      intro x hx
      rw [List.take_succ_eq_append_getElem hj, List.mem_append, List.mem_singleton] at hx
      have hx' : l[j] ≤ x := by
        rcases hx with hx | rfl
        · have h2 := h
          rw [← List.take_append_drop j l, List.pairwise_append, List.drop_eq_getElem_cons hj] at h2
          exact h2.2.2 x hx _ List.mem_cons_self
        · exact le_refl _
      simpa using lt_of_lt_of_le hu hx'
    have h2 : (l.take (j + 1)).length ≤ (l.filter (fun x => u < x)).length := by
      rw [← h1]
      exact ((List.take_sublist _ _).filter _).length_le
    rw [List.length_take] at h2
    omega

/-- At least `j + 1` elements reach the element at position `j` of a descending list. -/
theorem succ_le_length_filter_ge {l : List S} (h : l.Pairwise (fun a b => b ≤ a)) {j : Nat}
    (hj : j < l.length) : j + 1 ≤ (l.filter (fun x => l[j] ≤ x)).length := by
  have h1 : (l.take (j + 1)).filter (fun x => l[j] ≤ x) = l.take (j + 1) := by
    rw [List.filter_eq_self]
    intro x hx
    rw [List.take_succ_eq_append_getElem hj, List.mem_append, List.mem_singleton] at hx
    have hx' : l[j] ≤ x := by
      rcases hx with hx | rfl
      · have h2 := h
        rw [← List.take_append_drop j l, List.pairwise_append, List.drop_eq_getElem_cons hj] at h2
        exact h2.2.2 x hx _ List.mem_cons_self
      · exact le_refl _
    simpa using hx'
  have h2 : (l.take (j + 1)).length ≤ (l.filter (fun x => l[j] ≤ x)).length := by
    rw [← h1]
    exact ((List.take_sublist _ _).filter _).length_le
  rw [List.length_take] at h2
  omega

theorem length_take_sortDesc (key : α → S) (l : List α) (k : Nat) :
    ((sortDesc key l).take k).length = min k l.length := by
  rw [List.length_take, length_sortDesc]

theorem mem_of_mem_take_sortDesc {key : α → S} {l : List α} {k : Nat} {x : α}
    (h : x ∈ (sortDesc key l).take k) : x ∈ l :=
  mem_sortDesc.1 (List.mem_of_mem_take h)

theorem nodup_take_sortDesc {β : Type} {key : α → S} {l : List α} {f : α → β} (k : Nat)
    (h : (l.map f).Nodup) : (((sortDesc key l).take k).map f).Nodup := by
  rw [List.map_take]
  refine ((List.take_sublist _ _).nodup ?_)
  exact (((sortDesc_perm key l).map f).nodup_iff).2 h

/-- Descending order with ties in the original order. -/
theorem sortDesc_pairwise_stable {key : α → S} {r : α → α → Prop} {l : List α}
    (h : l.Pairwise r) :
    (sortDesc key l).Pairwise (fun a b => key b < key a ∨ (key b = key a ∧ r a b)) := by
  have ins : ∀ (a : α) (s : List α), (∀ b ∈ s, r a b) →
      s.Pairwise (fun a b => key b < key a ∨ (key b = key a ∧ r a b)) →
      (List.orderedInsert (fun a b => key b ≤ key a) a s).Pairwise
        (fun a b => key b < key a ∨ (key b = key a ∧ r a b)) := by
    intro a s
    induction s with
    | nil => intro _ _; simp
    | cons b s ih =>
      intro hr hp
      rw [List.orderedInsert_cons]
      have hp' := List.pairwise_cons.1 hp
      split
      · rename_i hab
        rw [List.pairwise_cons]
        refine ⟨?_, hp⟩
        intro c hc
        have hcb : key c ≤ key b := by
          rcases List.mem_cons.1 hc with rfl | hc
          · exact le_refl _
          · rcases hp'.1 c hc with h | h
            · exact le_of_lt h
            · exact le_of_eq h.1
        rcases lt_or_eq_of_le (le_trans hcb hab) with h | h
        · exact Or.inl h
        · exact Or.inr ⟨h, hr c hc⟩
      · rename_i hab
        rw [List.pairwise_cons]
        refine ⟨?_, ih (fun c hc => hr c (List.mem_cons_of_mem _ hc)) hp'.2⟩
        intro c hc
        rw [List.mem_orderedInsert] at hc
        rcases hc with rfl | hc
        · exact Or.inl (not_le.1 hab)
        · exact hp'.1 c hc
  unfold sortDesc
  induction l with
  | nil => simp
  | cons a l ih =>
    rw [List.pairwise_cons] at h
    rw [List.insertionSort_cons]
    exact ins a _ (fun b hb => h.1 b ((List.mem_insertionSort _).1 hb)) (ih h.2)

end Verif
