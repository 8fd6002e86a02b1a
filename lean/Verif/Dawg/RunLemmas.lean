import Verif.Dawg.Model

/-!
# Reading words in the heap; effect of heap updates
-/

namespace Verif
namespace Dawg

variable {α δ : Type} [LinearOrder α]

/-- The edge of a node for a letter. -/
def Heap.edge (h : Heap α) (x : ℕ) (c : α) : Option ℕ := Dict.get? (h x).edges c

/-- The node reached by reading a word. -/
def Heap.run (h : Heap α) : ℕ → List α → Option ℕ
  | x, [] => some x
  | x, c :: w => (h.edge x c).bind (fun y => Heap.run h y w)

/-- Acceptance from a node. -/
def Heap.acc (h : Heap α) (x : ℕ) (w : List α) : Prop :=
  ∃ y, h.run x w = some y ∧ (h y).terminal = true

theorem run_append (h : Heap α) (x : ℕ) (u v : List α) :
    h.run x (u ++ v) = (h.run x u).bind (fun y => h.run y v) := by
  induction u generalizing x with
  | nil => rfl
  | cons c u ih =>
    simp only [List.cons_append, Heap.run]
    cases h.edge x c with
    | none => rfl
    | some y => exact ih y

theorem run_snoc (h : Heap α) (x : ℕ) (u : List α) (c : α) :
    h.run x (u ++ [c]) = (h.run x u).bind (fun y => h.edge y c) := by
  rw [run_append]
  congr 1
  funext y
  simp only [Heap.run]
  cases h.edge y c <;> rfl

theorem acc_cons (h : Heap α) (x : ℕ) (c : α) (w : List α) :
    h.acc x (c :: w) ↔ ∃ y, h.edge x c = some y ∧ h.acc y w := by
  unfold Heap.acc
  simp only [Heap.run]
  cases h.edge x c <;> simp

theorem acc_nil (h : Heap α) (x : ℕ) : h.acc x [] ↔ (h x).terminal = true := by
  simp [Heap.acc, Heap.run]

theorem acc_append (h : Heap α) {x y : ℕ} {u : List α} (hu : h.run x u = some y) (w : List α) :
    h.acc x (u ++ w) ↔ h.acc y w := by
  unfold Heap.acc
  rw [run_append, hu]
  rfl

theorem edge_link (h : Heap α) (p : ℕ) (l : α) (m x : ℕ) (c : α) :
    (h.link p l m).edge x c = if x = p ∧ c = l then some m else h.edge x c := by
  unfold Heap.link Heap.edge Heap.put
  by_cases hx : x = p
  · subst hx
    simp only [if_true, Dict.get?_set, true_and, eq_comm]
  · simp [hx]

theorem terminal_link (h : Heap α) (p : ℕ) (l : α) (m x : ℕ) :
    ((h.link p l m) x).terminal = (h x).terminal := by
  unfold Heap.link Heap.put
  by_cases hx : x = p
  · subst hx; simp
  · simp [hx]

theorem link_other (h : Heap α) (p : ℕ) (l : α) (m x : ℕ) (hx : x ≠ p) : (h.link p l m) x = h x := by
  unfold Heap.link Heap.put
  simp [hx]

/-- The edges of a node determine the sorted list and conversely. -/
theorem sortEdges_perm (e : Dict α ℕ) : (sortEdges e).Perm e := List.perm_insertionSort _ _

theorem sortEdges_pairwise (e : Dict α ℕ) (hn : (Dict.keys e).Nodup) :
    (sortEdges e).Pairwise (fun a b => a.1 < b.1) := by
  have : Std.Total (fun a b : α × ℕ => a.1 ≤ b.1) := ⟨fun a b => le_total _ _⟩
  have : IsTrans (α × ℕ) (fun a b : α × ℕ => a.1 ≤ b.1) := ⟨fun a b c h1 h2 => le_trans h1 h2⟩
  have h1 : (sortEdges e).Pairwise (fun a b => a.1 ≤ b.1) := List.pairwise_insertionSort _ _
  have h2 : (sortEdges e).Pairwise (fun a b => a.1 ≠ b.1) := by
    have : ((sortEdges e).map Prod.fst).Nodup := (((sortEdges_perm e).map Prod.fst).nodup_iff).mpr hn
    exact List.pairwise_map.mp this
  exact (h1.and h2).imp (fun h => lt_of_le_of_ne h.1 h.2)

theorem mem_sortEdges {e : Dict α ℕ} {p : α × ℕ} : p ∈ sortEdges e ↔ p ∈ e :=
  (sortEdges_perm e).mem_iff

theorem mem_sortEdges_iff {e : Dict α ℕ} (hn : (Dict.keys e).Nodup) {c : α} {y : ℕ} :
    (c, y) ∈ sortEdges e ↔ Dict.get? e c = some y := by
  rw [mem_sortEdges, Dict.mem_iff_get? hn]

theorem get?_eq_of_sortEdges {e e' : Dict α ℕ} (hn : (Dict.keys e).Nodup) (hn' : (Dict.keys e').Nodup)
    (h : sortEdges e = sortEdges e') (c : α) : Dict.get? e c = Dict.get? e' c := by
  apply Option.ext
  intro y
  rw [← mem_sortEdges_iff hn, ← mem_sortEdges_iff hn', h]

theorem sortEdges_eq_of_get? {e e' : Dict α ℕ} (hn : (Dict.keys e).Nodup) (hn' : (Dict.keys e').Nodup)
    (h : ∀ c, Dict.get? e c = Dict.get? e' c) : sortEdges e = sortEdges e' := by
  have hnd : ∀ {e : Dict α ℕ}, (Dict.keys e).Nodup → (sortEdges e).Nodup := fun {e} hn =>
    (sortEdges_pairwise e hn).imp (fun {a b} h hab => by subst hab; exact lt_irrefl _ h)
  refine List.Perm.eq_of_pairwise (fun a b _ _ h h' => absurd h' (lt_asymm h))
    (sortEdges_pairwise e hn) (sortEdges_pairwise e' hn')
    ((List.perm_ext_iff_of_nodup (hnd hn) (hnd hn')).mpr ?_)
  rintro ⟨c, y⟩
  rw [mem_sortEdges_iff hn, mem_sortEdges_iff hn', h c]

/-! ### Redirecting an edge to a twin -/

/-- `m` is a twin of `c`: same flag, same edges. -/
structure Twin (h : Heap α) (c m : ℕ) : Prop where
  terminal : (h m).terminal = (h c).terminal
  edge : ∀ l, h.edge m l = h.edge c l

theorem run_redirect {h : Heap α} {p c m : ℕ} {l : α} (hpc : p ≠ c) (hpm : p ≠ m)
    (he : h.edge p l = some c) (ht : Twin h c m) (x : ℕ) (w : List α) :
    (h.link p l m).run x w = h.run x w ∨
      (h.run x w = some c ∧ (h.link p l m).run x w = some m) := by
  induction hlen : w.length using Nat.strong_induction_on generalizing x w with
  | _ n ih =>
    cases w with
    | nil => exact Or.inl rfl
    | cons a w =>
      simp only [Heap.run, edge_link]
      by_cases hx : x = p ∧ a = l
      · obtain ⟨rfl, rfl⟩ := hx
        simp only [and_self, if_true, Option.bind_some, he]
        cases w with
        | nil => exact Or.inr ⟨rfl, rfl⟩
        | cons b w =>
          simp only [Heap.run, edge_link, hpm.symm, false_and, if_false, ht.edge]
          cases hb : h.edge c b with
          | none => exact Or.inl rfl
          | some y =>
            simp only [Option.bind_some]
            exact ih w.length (by simp only [List.length_cons] at hlen; omega) y w rfl
      · rw [if_neg hx]
        cases hb : h.edge x a with
        | none => exact Or.inl rfl
        | some y =>
          simp only [Option.bind_some]
          exact ih w.length (by simp only [List.length_cons] at hlen; omega) y w rfl

theorem acc_redirect {h : Heap α} {p c m : ℕ} {l : α} (hpc : p ≠ c) (hpm : p ≠ m)
    (he : h.edge p l = some c) (ht : Twin h c m) (x : ℕ) (w : List α) :
    (h.link p l m).acc x w ↔ h.acc x w := by
  unfold Heap.acc
  rcases run_redirect hpc hpm he ht x w with h1 | ⟨h1, h2⟩
  · rw [h1]; simp only [terminal_link]
  · rw [h1, h2]
    simp [terminal_link, ht.terminal]

/-! ### Adding a fresh node -/

/-- The heap after `node.edges[a] = DAWGNode()`. -/
def Heap.grow (h : Heap α) (x : ℕ) (a : α) (y : ℕ) : Heap α := (h.put y Node.new).link x a y

theorem edge_grow (h : Heap α) (x : ℕ) (a : α) (y z : ℕ) (c : α) :
    (h.grow x a y).edge z c = if z = x ∧ c = a then some y else if z = y then none else h.edge z c := by
  unfold Heap.grow
  rw [edge_link]
  by_cases h1 : z = x ∧ c = a
  · rw [if_pos h1, if_pos h1]
  · rw [if_neg h1, if_neg h1]
    unfold Heap.edge Heap.put
    by_cases h2 : z = y
    · simp [h2, Node.new]
    · simp [h2]

theorem terminal_grow (h : Heap α) (x : ℕ) (a : α) (y z : ℕ) :
    ((h.grow x a y) z).terminal = if z = y then false else (h z).terminal := by
  unfold Heap.grow
  rw [terminal_link]
  unfold Heap.put
  by_cases h2 : z = y
  · simp [h2, Node.new]
  · simp [h2]

theorem grow_other (h : Heap α) (x : ℕ) (a : α) (y z : ℕ) (hx : z ≠ x) (hy : z ≠ y) :
    (h.grow x a y) z = h z := by
  unfold Heap.grow
  rw [link_other _ _ _ _ _ hx]
  simp [Heap.put, hy]

/-- Words read in the grown heap: as before, or ending with the new edge. `S` is a set of nodes
closed under edges that does not contain the fresh node. -/
theorem run_grow {h : Heap α} {x y : ℕ} {a : α} (S : ℕ → Prop)
    (hS : ∀ z c z', S z → h.edge z c = some z' → S z') (hSy : ¬ S y) (hSx : S x)
    (hnew : h.edge x a = none) (z : ℕ) (hz : S z) (w : List α) (t : ℕ) :
    (h.grow x a y).run z w = some t ↔
      h.run z w = some t ∨ (t = y ∧ ∃ u, w = u ++ [a] ∧ h.run z u = some x) := by
  have hxy : x ≠ y := fun e => hSy (e ▸ hSx)
  induction w using List.reverseRecOn generalizing t with
  | nil =>
    simp [Heap.run]
  | append_singleton w b ih =>
    have hrS : ∀ w t, h.run z w = some t → S t := by
      intro w
      induction w using List.reverseRecOn with
      | nil => intro t ht; simp only [Heap.run, Option.some.injEq] at ht; exact ht ▸ hz
      | append_singleton w c ih =>
        intro t ht
        rw [run_snoc] at ht
        obtain ⟨s, hs, hst⟩ := Option.bind_eq_some_iff.mp ht
        exact hS _ _ _ (ih s hs) hst
    rw [run_snoc, run_snoc, Option.bind_eq_some_iff, Option.bind_eq_some_iff]
    constructor
    · rintro ⟨s, hs, hst⟩
      rw [edge_grow h] at hst
      rcases (ih s).mp hs with hs' | ⟨rfl, u, rfl, hu⟩
      · have hsy : s ≠ y := fun e => hSy (e ▸ hrS _ _ hs')
        by_cases hc : s = x ∧ b = a
        · rw [if_pos hc, Option.some.injEq] at hst
          obtain ⟨rfl, rfl⟩ := hc
          exact Or.inr ⟨hst.symm, w, rfl, hs'⟩
        · rw [if_neg hc, if_neg hsy] at hst
          exact Or.inl ⟨s, hs', hst⟩
      · rw [if_neg (by rintro ⟨e, -⟩; exact hxy e.symm), if_pos rfl] at hst
        cases hst
    · rintro (⟨s, hs, hst⟩ | ⟨rfl, u, hu, hux⟩)
      · refine ⟨s, (ih s).mpr (Or.inl hs), ?_⟩
        have hsy : s ≠ y := fun e => hSy (e ▸ hrS _ _ hs)
        rw [edge_grow h, if_neg (by rintro ⟨rfl, rfl⟩; rw [hnew] at hst; cases hst), if_neg hsy]
        exact hst
      · obtain ⟨rfl, hb⟩ := List.append_inj' hu rfl
        simp only [List.cons.injEq, and_true] at hb
        subst hb
        refine ⟨x, (ih x).mpr (Or.inl hux), ?_⟩
        rw [edge_grow h, if_pos ⟨rfl, rfl⟩]

theorem edge_put_terminal (h : Heap α) (x : ℕ) (b : Bool) (z : ℕ) (c : α) :
    (h.put x { h x with terminal := b }).edge z c = h.edge z c := by
  unfold Heap.edge Heap.put
  by_cases hz : z = x
  · subst hz; simp
  · simp [hz]

theorem run_congr {h h' : Heap α} (he : ∀ z c, h'.edge z c = h.edge z c) (x : ℕ) (w : List α) :
    h'.run x w = h.run x w := by
  induction w generalizing x with
  | nil => rfl
  | cons c w ih =>
    simp only [Heap.run, he]
    congr 1
    funext y
    exact ih y

end Dawg
end Verif
