import Verif.Sizeof.Lemmas
import Mathlib.Algebra.Order.BigOperators.Group.List
import Mathlib.Algebra.Order.Ring.Nat

/-!
# Properties of `deep_sizeof` (experiments/sizeof.py)
-/

namespace Verif
namespace Sizeof

open SizeofSpec

/-! ## C145: every object is counted once -/

/-- C145: whenever `deep_sizeof` returns, the result is the sum of the sizes of the objects reached,
each counted once however often and along whatever cycles it is referred to, and no attribute looked
at was missing. -/
theorem C145_sizeof_sum (W : World) (f x n : ℕ) (h : deepSizeof W f x = some (.ok n)) :
    ∃ L : List ℕ, L.Nodup ∧ (∀ y, y ∈ L ↔ Reach W x y) ∧
      n = (L.map fun y => size (W.obj y)).sum ∧ ∀ y, Reach W x y → ¬ Broken (W.obj y) := by
  unfold deepSizeof at h
  rcases loop_walk W (fun y => Reach W x y) (fun a ha b hb => ha.tail ((mem_refsAt W a b).1 hb)) f
    [x] [] (fun y hy => by rw [List.mem_singleton.1 hy]; exact Relation.ReflTransGen.refl) with ⟨h1, -⟩ | ⟨h1, h2⟩
  · have h1' : loop W f ⟨[], [x]⟩ = some (.error .mk) := h1
    rw [h1'] at h
    cases h
  · have h1' : loop W f ⟨[], [x]⟩ =
      (walk (refsAt W) pushSet f [x] []).map (fun r => .ok (szs W r)) := h1
    rw [h1'] at h
    cases hw : walk (refsAt W) pushSet f [x] [] with
    | none => rw [hw] at h; cases h
    | some r =>
      rw [hw] at h
      obtain ⟨a, b, -⟩ := walk_spec goodPush_pushSet x f [x] [] r List.nodup_nil
        (by simpa using Relation.ReflTransGen.refl) (by simp) (by simp) (by simp) hw
      have hr : ∀ y, y ∈ r ↔ Reach W x y := fun y => (b y).trans (reach_iff W x y)
      refine ⟨r, a, hr, ?_, fun y hy => h2 r hw y ((hr y).2 hy) (by simp)⟩
      simp only [Option.map_some, Except.map, Option.some.injEq, Except.ok.injEq] at h
      rw [← h, Dict.values, szs, List.map_map]
      rfl

/-- C145: `deep_sizeof` ends, and returns or raises `AttributeError`, if finitely many objects can be
reached: it raises exactly if some object reached and looked into lists an attribute that cannot be
read, such as a slot that was never assigned. -/
theorem C145_sizeof_ends (W : World) (x : ℕ) (U : List ℕ) (hU : ∀ y, Reach W x y → y ∈ U) :
    ∃ f0 r, (∀ f, f0 ≤ f → deepSizeof W f x = some r) ∧
      (r = .error .mk ↔ ∃ y, Reach W x y ∧ Broken (W.obj y)) := by
  classical
  obtain ⟨f0, d, hw⟩ := walk_ends (refs := refsAt W) goodPush_pushSet
    (U.filter fun y => decide (Reach W x y)) (by
      intro a ha b hb
      have hr : Reach W x a := by simpa using (List.mem_filter.1 ha).2
      have hb' : Reach W x b := hr.tail ((mem_refsAt W a b).1 hb)
      exact List.mem_filter.2 ⟨hU b hb', by simpa using hb'⟩) _ [x] [] (by
      intro a ha
      rw [List.mem_singleton.1 ha]
      have hb' : Reach W x x := Relation.ReflTransGen.refl
      exact List.mem_filter.2 ⟨hU x hb', by simpa using hb'⟩) List.nodup_nil (by simp) (le_refl _)
  rcases loop_walk W (fun y => Reach W x y) (fun a ha b hb => ha.tail ((mem_refsAt W a b).1 hb)) f0
    [x] [] (fun y hy => by rw [List.mem_singleton.1 hy]; exact Relation.ReflTransGen.refl) with ⟨h1, h2⟩ | ⟨h1, h2⟩
  · have h1' : loop W f0 ⟨[], [x]⟩ = some (.error .mk) := h1
    refine ⟨f0, .error .mk, fun f hf => ?_, fun _ => h2, fun _ => rfl⟩
    unfold deepSizeof
    rw [loop_more W f0 f hf _ _ h1']
    rfl
  · have h1' : loop W f0 ⟨[], [x]⟩ =
      (walk (refsAt W) pushSet f0 [x] []).map (fun r => .ok (szs W r)) := h1
    rw [hw] at h1'
    have h3 : ∀ f, f0 ≤ f → deepSizeof W f x = some (.ok (Dict.values (szs W d)).sum) := by
      intro f hf
      unfold deepSizeof
      rw [loop_more W f0 f hf _ _ h1']
      rfl
    refine ⟨f0, _, h3, fun h => (by cases h), ?_⟩
    rintro ⟨y, hy, hb⟩
    obtain ⟨L, -, -, -, h4⟩ := C145_sizeof_sum W f0 x _ (h3 f0 (le_refl _))
    exact absurd hb (h4 y hy)

/-! ## C146: comparing results -/

/-- C146: the result does not depend on the order of references nor on repetitions: if the same
objects of the same sizes are reached, the results agree. -/
theorem C146_sizeof_order (W W' : World) (x x' f f' n n' : ℕ)
    (hr : ∀ y, Reach W x y ↔ Reach W' x' y)
    (hs : ∀ y, Reach W x y → size (W.obj y) = size (W'.obj y))
    (h : deepSizeof W f x = some (.ok n)) (h' : deepSizeof W' f' x' = some (.ok n')) : n = n' := by
  obtain ⟨L, a, b, c, -⟩ := C145_sizeof_sum W f x n h
  obtain ⟨L', a', b', c', -⟩ := C145_sizeof_sum W' f' x' n' h'
  have hp : L.Perm L' := (List.perm_ext_iff_of_nodup a a').2 fun y => by rw [b, b', hr]
  rw [c, c', List.map_congr_left fun y hy => hs y ((b y).1 hy)]
  exact (hp.map _).sum_eq

theorem sum_subset {s : ℕ → ℕ} {L L' : List ℕ} (hn : L.Nodup) (h : L ⊆ L') :
    (L.map s).sum ≤ (L'.map s).sum := by
  obtain ⟨l, h1, h2⟩ := List.subperm_of_subset hn h
  rw [← (h1.map s).sum_eq]
  exact (h2.map s).sum_le_sum (by simp)

/-- C146: an object reached from another is not larger. -/
theorem C146_sizeof_part (W : World) (x y f n : ℕ) (h : deepSizeof W f x = some (.ok n))
    (hy : Reach W x y) : ∃ f' m, deepSizeof W f' y = some (.ok m) ∧ m ≤ n := by
  obtain ⟨L, a, b, c, d⟩ := C145_sizeof_sum W f x n h
  obtain ⟨f0, r, h1, h2⟩ := C145_sizeof_ends W y L fun z hz => (b z).2 (hy.trans hz)
  have hr : r ≠ .error .mk := fun e => by
    obtain ⟨z, hz, hb⟩ := h2.1 e
    exact d z (hy.trans hz) hb
  rcases r with ⟨⟨⟩⟩ | m
  · exact absurd rfl hr
  · have h3 := h1 f0 (le_refl _)
    refine ⟨f0, m, h3, ?_⟩
    obtain ⟨L', a', b', c', -⟩ := C145_sizeof_sum W f0 y m h3
    rw [c, c']
    exact sum_subset a' fun z hz => (b z).2 (hy.trans ((b' z).1 hz))

/-- C146: the result is at most the size of the object itself and the results for what it refers to
(less if they share something). -/
theorem C146_sizeof_shared (W : World) (x f n : ℕ) (h : deepSizeof W f x = some (.ok n))
    (ys : List (ℕ × ℕ × ℕ)) (hys : ∀ y, Refers W (W.obj x) y → y ∈ ys.map Prod.fst)
    (hm : ∀ p ∈ ys, deepSizeof W p.2.1 p.1 = some (.ok p.2.2)) :
    n ≤ size (W.obj x) + (ys.map fun p => p.2.2).sum := by
  obtain ⟨L, a, b, c, -⟩ := C145_sizeof_sum W f x n h
  have key : ∀ zs : List (ℕ × ℕ × ℕ), (∀ p ∈ zs, deepSizeof W p.2.1 p.1 = some (.ok p.2.2)) →
      ∃ K : List ℕ, (∀ p ∈ zs, ∀ z, Reach W p.1 z → z ∈ K) ∧
        (K.map fun y => size (W.obj y)).sum = (zs.map fun p => p.2.2).sum := by
    intro zs
    induction zs with
    | nil => intro _; exact ⟨[], by simp, rfl⟩
    | cons p zs ih =>
      intro hz
      obtain ⟨K, h1, h2⟩ := ih fun q hq => hz q (List.mem_cons_of_mem _ hq)
      obtain ⟨L', -, b', c', -⟩ := C145_sizeof_sum W _ _ _ (hz p List.mem_cons_self)
      refine ⟨L' ++ K, ?_, ?_⟩
      · intro q hq z hqz
        rcases List.mem_cons.1 hq with rfl | hq
        · exact List.mem_append_left _ ((b' z).2 hqz)
        · exact List.mem_append_right _ (h1 q hq z hqz)
      · rw [List.map_append, List.sum_append, ← c', h2, List.map_cons, List.sum_cons]
  obtain ⟨K, h1, h2⟩ := key ys hm
  rw [c, ← h2, ← List.sum_cons, ← List.map_cons (f := fun y => size (W.obj y))]
  apply sum_subset a
  intro z hz
  rcases Relation.ReflTransGen.cases_head ((b z).1 hz) with rfl | ⟨y, ⟨-, hy⟩, hyz⟩
  · exact List.mem_cons_self
  · obtain ⟨p, hp, e⟩ := List.mem_map.1 (hys y hy)
    exact List.mem_cons_of_mem _ (h1 p hp z (e ▸ hyz))

/-! ## Examples -/

/-- An object without references. -/
def leaf (n : ℕ) : Obj := ⟨none, none, n, true, none, none, ([], []), [], []⟩

/-- A list. -/
def listOf (n : ℕ) (l : List ℕ) : Obj := ⟨none, none, n, false, none, some l, ([], []), [], []⟩

/-- A list containing itself, one string twice and an array. -/
example : deepSizeof ⟨fun x => if x = 0 then listOf 88 [0, 1, 1, 2] else if x = 1 then leaf 50
      else { leaf 100 with nbytes := some 400 }, 9⟩ 5 0 = some (.ok 538) := by
  decide +kernel

/-- An object with slots `a` and `b`; `a` is set to a string; if `b` is not set, the call raises. -/
example : let o (b : Option ℕ) : Obj := ⟨none, none, 48, false, none, none, ([], []), [some 1, b],
      [⟨"__doc__".toList, false, some 3⟩, ⟨"a".toList, false, some 1⟩, ⟨"b".toList, false, b⟩]⟩
    deepSizeof ⟨fun x => if x = 0 then o (some 2) else leaf 50, 9⟩ 5 0 = some (.ok 148) ∧
    deepSizeof ⟨fun x => if x = 0 then o none else leaf 50, 9⟩ 5 0 = some (.error .mk) := by
  decide +kernel

end Sizeof
end Verif
