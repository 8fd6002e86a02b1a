import Verif.Edit.Props
import Mathlib.Algebra.Order.Group.Multiset
import Mathlib.Algebra.Order.Sub.Unbundled.Basic
import Mathlib.Algebra.Order.Sub.Basic
import Mathlib.Logic.Function.Basic

/-!
# C246: edit distances of changed words

`edit_distance`, `damerau_levenshtein_distance` (experiments/edit_distance.py, lines 1–60) and `levenshtein` (experiments/automata.py,
lines 298–316) when common ends are removed, words are read backwards, characters are renamed, or words are joined.
-/

namespace Verif
namespace Edit

open EditSpec

variable {α β : Type} [DecidableEq α] [DecidableEq β]

theorem dist_common_prefix {c : Costs Nat} (hc : c.Nonneg) (p u v : List α) :
    dist c (p ++ u) (p ++ v) = dist c u v := by
  induction p with
  | nil => rfl
  | cons a p ih => rw [List.cons_append, List.cons_append, dist_same hc, ih]

theorem dist_common_ends {c : Costs Nat} (hc : c.Nonneg) (p u v s : List α) :
    dist c (p ++ u ++ s) (p ++ v ++ s) = dist c u v := by
  rw [← dist_reverse c (p ++ u ++ s) (p ++ v ++ s), List.reverse_append (as := p ++ u),
    List.reverse_append (as := p ++ v), dist_common_prefix hc, dist_reverse, dist_common_prefix hc]

omit [DecidableEq α] in
/-- A map of characters does not make scripts dearer. -/
theorem edit_map {c : Costs Nat} (f : α → β) {u v : List α} {x : Nat} (h : EditSpec.Edit c u v x) :
    ∃ y, y ≤ x ∧ EditSpec.Edit c (u.map f) (v.map f) y := by
  induction h with
  | nil => exact ⟨0, le_refl _, .nil⟩
  | keep a _ ih => obtain ⟨y, hy, h⟩ := ih; exact ⟨y, hy, .keep _ h⟩
  | ins b _ ih => obtain ⟨y, hy, h⟩ := ih; exact ⟨_, Nat.add_le_add_right hy _, .ins _ h⟩
  | del a _ ih => obtain ⟨y, hy, h⟩ := ih; exact ⟨_, Nat.add_le_add_right hy _, .del _ h⟩
  | sub a b _ _ ih =>
    obtain ⟨y, hy, h⟩ := ih
    by_cases e : f a = f b
    · refine ⟨y, by omega, ?_⟩
      simp only [List.map_cons, e]
      exact .keep _ h
    · exact ⟨_, Nat.add_le_add_right hy _, .sub _ _ e h⟩
  | swap a b ht _ ih =>
    obtain ⟨y, hy, h⟩ := ih
    exact ⟨_, Nat.add_le_add_right hy _, .swap _ _ ht h⟩

theorem dist_map_le (c : Costs Nat) (f : α → β) (u v : List α) :
    dist c (u.map f) (v.map f) ≤ dist c u v := by
  obtain ⟨y, hy, h⟩ := edit_map f (edit_dist c u v)
  exact (dist_le h).trans hy

theorem dist_map (c : Costs Nat) (f : α → β) (hf : Function.Injective f) (u v : List α) :
    dist c (u.map f) (v.map f) = dist c u v := by
  refine le_antisymm (dist_map_le c f u v) ?_
  cases isEmpty_or_nonempty α with
  | inl h =>
    cases u with
    | nil =>
      cases v with
      | nil => simp [dist]
      | cons a _ => exact h.elim a
    | cons a _ => exact h.elim a
  | inr h =>
    have := dist_map_le c (Function.invFun f) (u.map f) (v.map f)
    rw [List.map_map, List.map_map, (Function.leftInverse_invFun hf).comp_eq_id, List.map_id,
      List.map_id] at this
    exact this

theorem edit_surplus {c : Costs Nat} (h1 : 0 < c.del) (h2 : 0 < c.sub) {u v : List α} {x : Nat}
    (h : EditSpec.Edit c u v x) : Multiset.card ((u : Multiset α) - (v : Multiset α)) ≤ x := by
  induction h with
  | nil => simp
  | @keep u v x a _ ih =>
    rw [← Multiset.cons_coe, ← Multiset.cons_coe, Multiset.sub_cons, Multiset.erase_cons_head]
    exact ih
  | @ins u v x b _ ih =>
    rw [← Multiset.cons_coe, ← Multiset.singleton_add, add_comm, ← tsub_tsub]
    exact (Multiset.card_le_card (Multiset.sub_le_self _ _)).trans (ih.trans (Nat.le_add_right _ _))
  | @del u v x a _ ih =>
    rw [← Multiset.cons_coe, ← Multiset.singleton_add]
    have : ({a} + (u : Multiset α)) - v ≤ {a} + ((u : Multiset α) - v) := add_tsub_le_assoc
    have := Multiset.card_le_card this
    rw [Multiset.card_add, Multiset.card_singleton] at this
    omega
  | @sub u v x a b _ _ ih =>
    rw [← Multiset.cons_coe, ← Multiset.cons_coe, ← Multiset.singleton_add, ← Multiset.singleton_add]
    have e1 : ({a} + (u : Multiset α)) - ({b} + v) ≤ ({a} + (u : Multiset α)) - v :=
      tsub_le_tsub_left (Multiset.le_add_left _ _) _
    have e2 : ({a} + (u : Multiset α)) - v ≤ {a} + ((u : Multiset α) - v) := add_tsub_le_assoc
    have := Multiset.card_le_card (e1.trans e2)
    rw [Multiset.card_add, Multiset.card_singleton] at this
    omega
  | @swap u v x t a b _ _ ih =>
    have e : ((a :: b :: u : List α) : Multiset α) = ((b :: a :: u : List α) : Multiset α) :=
      Multiset.coe_eq_coe.mpr (List.Perm.swap b a u)
    rw [e, ← Multiset.cons_coe, ← Multiset.cons_coe, ← Multiset.cons_coe (b) (a :: v),
      ← Multiset.cons_coe (a) v, Multiset.sub_cons, Multiset.erase_cons_head, Multiset.sub_cons,
      Multiset.erase_cons_head]
    omega

/-- C246: characters that both words have in common at the beginning and at the end do not matter. -/
theorem C246_common_ends (p u v s : List α) :
    editDistance (p ++ u ++ s) (p ++ v ++ s) = editDistance u v ∧
    levenshtein (p ++ u ++ s) (p ++ v ++ s) = levenshtein u v ∧
    damerauDistance (p ++ u ++ s) (p ++ v ++ s) = damerauDistance u v := by
  simp only [editDistance_ok, levenshtein_ok, damerauDistance_ok,
    dist_common_ends unit_nonneg, dist_common_ends unitT_nonneg, and_self]

/-- C246: reading both words backwards changes nothing. -/
theorem C246_reverse (u v : List α) :
    editDistance u.reverse v.reverse = editDistance u v ∧
    levenshtein u.reverse v.reverse = levenshtein u v ∧
    damerauDistance u.reverse v.reverse = damerauDistance u v := by
  simp only [editDistance_ok, levenshtein_ok, damerauDistance_ok, dist_reverse, and_self]

/-- C246: only equality of characters matters. -/
theorem C246_rename (f : α → β) (hf : Function.Injective f) (u v : List α) :
    editDistance (u.map f) (v.map f) = editDistance u v ∧
    levenshtein (u.map f) (v.map f) = levenshtein u v ∧
    damerauDistance (u.map f) (v.map f) = damerauDistance u v := by
  simp only [editDistance_ok, levenshtein_ok, damerauDistance_ok, dist_map _ f hf, and_self]

/-- C246: replacing every character by one that depends only on it (say, its lower case) never increases a
distance. -/
theorem C246_fold (f : α → β) (u v : List α) :
    ∃ d d' e e', levenshtein u v = .ok d ∧ levenshtein (u.map f) (v.map f) = .ok d' ∧
      editDistance u v = .ok d ∧ editDistance (u.map f) (v.map f) = .ok d' ∧ d' ≤ d ∧
      damerauDistance u v = .ok e ∧ damerauDistance (u.map f) (v.map f) = .ok e' ∧ e' ≤ e :=
  ⟨_, _, _, _, levenshtein_ok _ _, levenshtein_ok _ _, editDistance_ok _ _, editDistance_ok _ _,
    dist_map_le _ f u v, damerauDistance_ok _ _, damerauDistance_ok _ _, dist_map_le _ f u v⟩

/-- C246: distances of joined words are at most the sums. -/
theorem C246_concat (u v u' v' : List α) :
    ∃ d d' d'' e e' e'', levenshtein u v = .ok d ∧ levenshtein u' v' = .ok d' ∧
      levenshtein (u ++ u') (v ++ v') = .ok d'' ∧ editDistance u v = .ok d ∧
      editDistance u' v' = .ok d' ∧ editDistance (u ++ u') (v ++ v') = .ok d'' ∧ d'' ≤ d + d' ∧
      damerauDistance u v = .ok e ∧ damerauDistance u' v' = .ok e' ∧
      damerauDistance (u ++ u') (v ++ v') = .ok e'' ∧ e'' ≤ e + e' :=
  ⟨_, _, _, _, _, _, levenshtein_ok _ _, levenshtein_ok _ _, levenshtein_ok _ _,
    editDistance_ok _ _, editDistance_ok _ _, editDistance_ok _ _,
    dist_le ((edit_dist _ u v).append (edit_dist _ u' v')), damerauDistance_ok _ _,
    damerauDistance_ok _ _, damerauDistance_ok _ _,
    dist_le ((edit_dist _ u v).append (edit_dist _ u' v'))⟩

/-- C246: a distance is at least the number of characters of one word, counted with multiplicity, that the
other word lacks. -/
theorem C246_surplus (u v : List α) :
    ∃ d e, levenshtein u v = .ok d ∧ editDistance u v = .ok d ∧ damerauDistance u v = .ok e ∧
      (u.diff v).length ≤ e ∧ (v.diff u).length ≤ e ∧ e ≤ d := by
  have key : ∀ u v : List α, (u.diff v).length ≤ dist unitCostsT u v := by
    intro u v
    have := edit_surplus (by decide) (by decide) (edit_dist unitCostsT u v)
    rwa [Multiset.coe_sub, Multiset.coe_card] at this
  refine ⟨_, _, levenshtein_ok u v, editDistance_ok u v, damerauDistance_ok u v, key u v, ?_,
    unitT_le_unit u v⟩
  rw [unitT_symm]
  exact key v u

/-- Distances of "typo" and "tpyo" inside a sentence; both sides are not zero. -/
example : damerauDistance "a typo here".toList "a tpyo here".toList = .ok 1 ∧
    damerauDistance "typo".toList "tpyo".toList = .ok 1 ∧
    levenshtein "Abc".toList "aBd".toList = .ok 3 ∧
    levenshtein ("Abc".toList.map Char.toLower) ("aBd".toList.map Char.toLower) = .ok 1 ∧
    ("kitten".toList.diff "sitting".toList).length = 2 ∧
    Function.Injective (fun n : ℕ => n + 1) := by
  refine ⟨by decide +kernel, by decide +kernel, by decide +kernel, by decide +kernel,
    by decide +kernel, fun a b h => by simpa using h⟩

end Edit
end Verif
