import Verif.Edit.Spec
import Mathlib.Algebra.Order.Group.Nat
import Mathlib.Order.Bounds.Basic
import Mathlib.Tactic.Abel

/-!
# The recursion behind the edit distance tables

Helper lemmas only.
-/

namespace Verif
namespace EditSpec

variable {α K : Type} [DecidableEq α] [AddCommMonoid K] [LinearOrder K] [IsOrderedAddMonoid K]

/-- The least cost of an edit script, by recursion on both sequences. -/
def dist (c : Costs K) : List α → List α → K
  | [], [] => 0
  | _ :: u, [] => dist c u [] + c.del
  | [], _ :: v => dist c [] v + c.ins
  | a :: u, b :: v =>
    let m := min (min (dist c (a :: u) v + c.ins) (dist c u (b :: v) + c.del))
      (if a = b then dist c u v else dist c u v + c.sub)
    if u.head? = some b ∧ v.head? = some a then
      match c.swap with
      | some t => min m (dist c u.tail v.tail + t)
      | none => m
    else m
termination_by u v => u.length + v.length
decreasing_by
  all_goals simp
  all_goals omega

omit [IsOrderedAddMonoid K] in
theorem dist_cons_cons (c : Costs K) (a b : α) (u v : List α) :
    dist c (a :: u) (b :: v) =
      let m := min (min (dist c (a :: u) v + c.ins) (dist c u (b :: v) + c.del))
        (if a = b then dist c u v else dist c u v + c.sub)
      if u.head? = some b ∧ v.head? = some a then
        match c.swap with
        | some t => min m (dist c u.tail v.tail + t)
        | none => m
      else m := by
  rw [dist]

omit [IsOrderedAddMonoid K] in
theorem dist_le_base (c : Costs K) (a b : α) (u v : List α) :
    dist c (a :: u) (b :: v) ≤ min (min (dist c (a :: u) v + c.ins) (dist c u (b :: v) + c.del))
        (if a = b then dist c u v else dist c u v + c.sub) := by
  rw [dist_cons_cons]
  simp only
  split
  · split
    · exact min_le_left _ _
    · exact le_refl _
  · exact le_refl _

omit [IsOrderedAddMonoid K] in
theorem dist_ins (c : Costs K) (u v : List α) (b : α) : dist c u (b :: v) ≤ dist c u v + c.ins := by
  cases u with
  | nil => rw [dist]
  | cons a u => exact (dist_le_base c a b u v).trans ((min_le_left _ _).trans (min_le_left _ _))

omit [IsOrderedAddMonoid K] in
theorem dist_del (c : Costs K) (u v : List α) (a : α) : dist c (a :: u) v ≤ dist c u v + c.del := by
  cases v with
  | nil => rw [dist]
  | cons b v => exact (dist_le_base c a b u v).trans ((min_le_left _ _).trans (min_le_right _ _))

omit [IsOrderedAddMonoid K] in
theorem dist_keep (c : Costs K) (u v : List α) (a : α) :
    dist c (a :: u) (a :: v) ≤ dist c u v := by
  refine (dist_le_base c a a u v).trans ((min_le_right _ _).trans ?_)
  simp

omit [IsOrderedAddMonoid K] in
theorem dist_sub (c : Costs K) (u v : List α) {a b : α} (h : a ≠ b) :
    dist c (a :: u) (b :: v) ≤ dist c u v + c.sub := by
  refine (dist_le_base c a b u v).trans ((min_le_right _ _).trans ?_)
  simp [h]

omit [IsOrderedAddMonoid K] in
theorem dist_swap (c : Costs K) (u v : List α) (a b : α) {t : K} (h : c.swap = some t) :
    dist c (a :: b :: u) (b :: a :: v) ≤ dist c u v + t := by
  rw [dist_cons_cons]
  simp [h]

/-- `dist` is at most the cost of any script. -/
theorem dist_le {c : Costs K} {u v : List α} {x : K} (h : Edit c u v x) : dist c u v ≤ x := by
  induction h with
  | nil => rw [dist]
  | keep a _ ih => exact (dist_keep c _ _ a).trans ih
  | ins b _ ih => exact (dist_ins c _ _ b).trans (add_le_add_left ih _)
  | del a _ ih => exact (dist_del c _ _ a).trans (add_le_add_left ih _)
  | sub a b hab _ ih => exact (dist_sub c _ _ hab).trans (add_le_add_left ih _)
  | swap a b ht _ ih => exact (dist_swap c _ _ a b ht).trans (add_le_add_left ih _)

omit [IsOrderedAddMonoid K] in
/-- `dist` is the cost of some script. -/
theorem edit_dist (c : Costs K) (u v : List α) : Edit c u v (dist c u v) := by
  generalize hn : u.length + v.length = n
  induction n using Nat.strong_induction_on generalizing u v with
  | _ n ih =>
  match u, v with
  | [], [] => rw [dist]; exact .nil
  | a :: u, [] => rw [dist]; exact .del a (ih _ (by simp at hn ⊢; omega) _ _ rfl)
  | [], b :: v => rw [dist]; exact .ins b (ih _ (by simp at hn ⊢; omega) _ _ rfl)
  | a :: u, b :: v =>
    have ih1 := ih _ (by simp at hn ⊢; omega) (a :: u) v rfl
    have ih2 := ih _ (by simp at hn ⊢; omega) u (b :: v) rfl
    have ih3 := ih _ (by simp at hn ⊢; omega) u v rfl
    have ih4 := ih _ (by simp at hn ⊢; omega) u.tail v.tail rfl
    have hbase : Edit c (a :: u) (b :: v)
        (min (min (dist c (a :: u) v + c.ins) (dist c u (b :: v) + c.del))
        (if a = b then dist c u v else dist c u v + c.sub)) := by
      rcases min_choice (min (dist c (a :: u) v + c.ins) (dist c u (b :: v) + c.del))
        (if a = b then dist c u v else dist c u v + c.sub) with h | h
      · rw [h]
        rcases min_choice (dist c (a :: u) v + c.ins) (dist c u (b :: v) + c.del) with h | h
        · rw [h]; exact .ins b ih1
        · rw [h]; exact .del a ih2
      · rw [h]
        split
        · rename_i hab; subst hab; exact .keep a ih3
        · rename_i hab; exact .sub a b hab ih3
    rw [dist_cons_cons]
    simp only
    split
    · rename_i hc
      obtain ⟨u', rfl⟩ : ∃ u', u = b :: u' := by
        cases u with
        | nil => simp at hc
        | cons x u => simp at hc; exact ⟨u, by rw [hc.1]⟩
      obtain ⟨v', rfl⟩ : ∃ v', v = a :: v' := by
        cases v with
        | nil => simp at hc
        | cons x v => simp at hc; exact ⟨v, by rw [hc]⟩
      split
      · rename_i t ht
        rcases min_choice (min (min (dist c (a :: b :: u') (a :: v') + c.ins)
          (dist c (b :: u') (b :: a :: v') + c.del))
          (if a = b then dist c (b :: u') (a :: v') else dist c (b :: u') (a :: v') + c.sub))
          (dist c u' v' + t) with h | h
        · rw [List.tail_cons, List.tail_cons, h]; exact hbase
        · rw [List.tail_cons, List.tail_cons, h]; exact .swap a b ht ih4
      · exact hbase
    · exact hbase

/-- Scripts of cost at most `k` exist exactly when `dist` is at most `k`. -/
theorem dist_le_iff (c : Costs K) (u v : List α) (k : K) :
    dist c u v ≤ k ↔ ∃ x, x ≤ k ∧ Edit c u v x :=
  ⟨fun h => ⟨_, h, edit_dist c u v⟩, fun ⟨_, h, he⟩ => (dist_le he).trans h⟩

omit [DecidableEq α] [LinearOrder K] [IsOrderedAddMonoid K] in
theorem Edit.append {c : Costs K} {u v u' v' : List α} {x y : K} (h : Edit c u v x)
    (h' : Edit c u' v' y) : Edit c (u ++ u') (v ++ v') (x + y) := by
  induction h with
  | nil => simpa using h'
  | keep a _ ih => exact .keep a ih
  | ins b _ ih => rw [add_right_comm]; exact .ins b ih
  | del a _ ih => rw [add_right_comm]; exact .del a ih
  | sub a b hab _ ih => rw [add_right_comm]; exact .sub a b hab ih
  | swap a b ht _ ih => rw [add_right_comm]; exact .swap a b ht ih

omit [DecidableEq α] [LinearOrder K] [IsOrderedAddMonoid K] in
theorem Edit.reverse {c : Costs K} {u v : List α} {x : K} (h : Edit c u v x) :
    Edit c u.reverse v.reverse x := by
  induction h with
  | nil => exact .nil
  | keep a _ ih =>
    have := ih.append (Edit.keep a (.nil (c := c)))
    simpa using this
  | ins b _ ih =>
    have := ih.append (Edit.ins b (.nil (c := c)))
    simpa using this
  | del a _ ih =>
    have := ih.append (Edit.del a (.nil (c := c)))
    simpa using this
  | sub a b hab _ ih =>
    have := ih.append (Edit.sub a b hab (.nil (c := c)))
    simpa using this
  | swap a b ht _ ih =>
    have := ih.append (Edit.swap b a ht (.nil (c := c)))
    simpa using this

theorem dist_reverse (c : Costs K) (u v : List α) : dist c u.reverse v.reverse = dist c u v := by
  refine le_antisymm (dist_le (edit_dist c u v).reverse) ?_
  have := (edit_dist c u.reverse v.reverse).reverse
  rw [List.reverse_reverse, List.reverse_reverse] at this
  exact dist_le this

/-- The costs of reading a script backwards, from the second sequence to the first. -/
def Costs.flip (c : Costs K) : Costs K := ⟨c.del, c.ins, c.sub, c.swap⟩

omit [DecidableEq α] [LinearOrder K] [IsOrderedAddMonoid K] in
theorem Edit.symm {c : Costs K} {u v : List α} {x : K} (h : Edit c u v x) : Edit c.flip v u x := by
  induction h with
  | nil => exact .nil
  | keep a _ ih => exact .keep a ih
  | ins b _ ih => exact .del (c := c.flip) b ih
  | del a _ ih => exact .ins (c := c.flip) a ih
  | sub a b hab _ ih => exact .sub (c := c.flip) b a hab.symm ih
  | swap a b ht _ ih => exact .swap (c := c.flip) b a ht ih

theorem dist_symm (c : Costs K) (u v : List α) : dist c.flip v u = dist c u v :=
  le_antisymm (dist_le (edit_dist c u v).symm) (dist_le (edit_dist c.flip v u).symm)

/-- No cost is negative. -/
structure Costs.Nonneg (c : Costs K) : Prop where
  ins : 0 ≤ c.ins
  del : 0 ≤ c.del
  sub : 0 ≤ c.sub
  swap : ∀ t, c.swap = some t → 0 ≤ t

omit [IsOrderedAddMonoid K] in
theorem Costs.Nonneg.flip {c : Costs K} (h : c.Nonneg) : c.flip.Nonneg :=
  ⟨h.del, h.ins, h.sub, h.swap⟩

omit [DecidableEq α] in
theorem Edit.nonneg {c : Costs K} (hc : c.Nonneg) {u v : List α} {x : K} (h : Edit c u v x) :
    0 ≤ x := by
  induction h with
  | nil => exact le_refl _
  | keep a _ ih => exact ih
  | ins b _ ih => exact add_nonneg ih hc.ins
  | del a _ ih => exact add_nonneg ih hc.del
  | sub a b hab _ ih => exact add_nonneg ih hc.sub
  | swap a b ht _ ih => exact add_nonneg ih (hc.swap _ ht)

theorem dist_nonneg {c : Costs K} (hc : c.Nonneg) (u v : List α) : 0 ≤ dist c u v :=
  (edit_dist c u v).nonneg hc

omit [DecidableEq α] in
/-- Dropping the first character of the source costs at most one insertion. -/
theorem Edit.tail {c : Costs K} (hc : c.Nonneg) {a : α} {u v : List α} {x : K}
    (h : Edit c (a :: u) v x) : ∃ y, y ≤ x + c.ins ∧ Edit c u v y := by
  generalize hw : a :: u = w at h
  induction h generalizing u with
  | nil => simp at hw
  | @keep u' v' x a' h _ =>
    obtain ⟨rfl, rfl⟩ := List.cons.inj hw
    exact ⟨_, le_refl _, .ins a h⟩
  | ins b _ ih =>
    obtain ⟨y, h1, h2⟩ := ih hw
    exact ⟨_, add_le_add_left h1 _, .ins b h2⟩
  | @del u' v' x a' h _ =>
    obtain ⟨rfl, rfl⟩ := List.cons.inj hw
    exact ⟨x, le_add_of_le_of_nonneg (le_add_of_nonneg_right hc.del) hc.ins, h⟩
  | @sub u' v' x a' b hab h _ =>
    obtain ⟨rfl, rfl⟩ := List.cons.inj hw
    exact ⟨_, add_le_add_left (le_add_of_nonneg_right hc.sub) _, .ins b h⟩
  | @swap u' v' x t a' b ht h _ =>
    obtain ⟨rfl, rfl⟩ := List.cons.inj hw
    exact ⟨_, add_le_add_left (le_add_of_nonneg_right (hc.swap _ ht)) _, .keep b (.ins a h)⟩

theorem dist_tail_left {c : Costs K} (hc : c.Nonneg) (a : α) (u v : List α) :
    dist c u v ≤ dist c (a :: u) v + c.ins := by
  obtain ⟨y, h1, h2⟩ := (edit_dist c (a :: u) v).tail hc
  exact (dist_le h2).trans h1

theorem dist_tail_right {c : Costs K} (hc : c.Nonneg) (b : α) (u v : List α) :
    dist c u v ≤ dist c u (b :: v) + c.del := by
  rw [← dist_symm, ← dist_symm c u (b :: v)]
  exact dist_tail_left hc.flip b v u

/-- Equal characters at the front are kept. -/
theorem dist_same {c : Costs K} (hc' : c.Nonneg) (a : α) (u v : List α) :
    dist c (a :: u) (a :: v) = dist c u v := by
  refine le_antisymm (dist_keep c u v a) ?_
  have hbase : dist c u v ≤ min (min (dist c (a :: u) v + c.ins) (dist c u (a :: v) + c.del))
        (if a = a then dist c u v else dist c u v + c.sub) := by
    refine le_min (le_min (dist_tail_left hc' a u v) (dist_tail_right hc' a u v)) ?_
    simp
  rw [dist_cons_cons]
  simp only [if_true] at hbase ⊢
  split
  · rename_i hc
    split
    · rename_i t ht
      refine le_min hbase ?_
      obtain ⟨u', rfl⟩ : ∃ u', u = a :: u' := by
        cases u with
        | nil => simp at hc
        | cons x u => simp at hc; exact ⟨u, by rw [hc.1]⟩
      obtain ⟨v', rfl⟩ : ∃ v', v = a :: v' := by
        cases v with
        | nil => simp at hc
        | cons x v => simp at hc; exact ⟨v, by rw [hc]⟩
      exact (dist_keep c u' v' _).trans (le_add_of_nonneg_right (hc'.swap _ ht))
    · exact hbase
  · exact hbase

omit [IsOrderedAddMonoid K] in
/-- Different characters at the front. -/
theorem dist_diff (c : Costs K) {a b : α} (h : a ≠ b) (u v : List α) :
    dist c (a :: u) (b :: v) =
      let m := min (min (dist c (a :: u) v + c.ins) (dist c u (b :: v) + c.del))
        (dist c u v + c.sub)
      if u.head? = some b ∧ v.head? = some a then
        match c.swap with
        | some t => min m (dist c u.tail v.tail + t)
        | none => m
      else m := by
  rw [dist_cons_cons]
  simp only [h, if_false]

omit [IsOrderedAddMonoid K] in
theorem dist_nil_right (c : Costs K) (u : List α) : dist c u [] = u.length • c.del := by
  induction u with
  | nil => rw [dist]; simp
  | cons a u ih => rw [dist, ih, List.length_cons, succ_nsmul]

omit [IsOrderedAddMonoid K] in
theorem dist_nil_left (c : Costs K) (v : List α) : dist c [] v = v.length • c.ins := by
  induction v with
  | nil => rw [dist]; simp
  | cons a u ih => rw [dist, ih, List.length_cons, succ_nsmul]

end EditSpec
end Verif
