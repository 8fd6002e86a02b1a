import Mathlib.Data.List.Nodup
import Mathlib.Data.List.Perm.Subperm
import Mathlib.Logic.Relation

/-!
# Visiting everything reachable with a stack

Facts shared by the two loops of the form `while stack: pop; if done: continue; …; push`.
-/

namespace Verif

/-- A loop taking elements from a stack; `push done stack refs` is the stack after `refs` were offered
to it. The result lists the visited elements in order; `none` means that the rounds did not suffice. -/
def walk (refs : ℕ → List ℕ) (push : List ℕ → List ℕ → List ℕ → List ℕ) :
    ℕ → List ℕ → List ℕ → Option (List ℕ)
  | _, [], done => some done
  | 0, _ :: _, _ => none
  | f + 1, x :: stack, done =>
    if x ∈ done then walk refs push f stack done
    else walk refs push f (push (done ++ [x]) stack (refs x)) (done ++ [x])

/-- What a way of pushing has to do. -/
structure GoodPush (push : List ℕ → List ℕ → List ℕ → List ℕ) : Prop where
  sub : ∀ d s l y, y ∈ push d s l → y ∈ s ∨ y ∈ l
  keep : ∀ d s l y, y ∈ s → y ∈ push d s l
  add : ∀ d s l y, y ∈ l → y ∉ d → y ∈ push d s l

variable {refs : ℕ → List ℕ} {push : List ℕ → List ℕ → List ℕ → List ℕ}

theorem walk_more (f f' : ℕ) (hf : f ≤ f') (s d r : List ℕ) (h : walk refs push f s d = some r) :
    walk refs push f' s d = some r := by
  induction f generalizing f' s d with
  | zero =>
    cases s with
    | nil => cases f' <;> exact h
    | cons x s => cases h
  | succ f ih =>
    cases s with
    | nil => cases f' <;> exact h
    | cons x s =>
      obtain ⟨f', rfl⟩ : ∃ k, f' = k + 1 := ⟨f' - 1, by omega⟩
      rw [walk] at h ⊢
      split_ifs at h ⊢ with hx
      · exact ih f' (by omega) _ _ h
      · exact ih f' (by omega) _ _ h

/-- The loop ends if only finitely many elements can be met. -/
theorem walk_ends (hp : GoodPush push) (U : List ℕ) (hU : ∀ x ∈ U, ∀ y ∈ refs x, y ∈ U) :
    ∀ (k : ℕ) (s d : List ℕ), (∀ x ∈ s, x ∈ U) → d.Nodup → d ⊆ U → U.length - d.length ≤ k →
    ∃ f r, walk refs push f s d = some r := by
  intro k
  induction k with
  | zero =>
    intro s d hs hd hdU hk
    have hall : ∀ x ∈ U, x ∈ d := by
      intro x hx
      by_contra hxd
      have h1 : (x :: d).Nodup := List.nodup_cons.2 ⟨hxd, hd⟩
      have h2 : x :: d ⊆ U := List.cons_subset.2 ⟨hx, hdU⟩
      have := (List.subperm_of_subset h1 h2).length_le
      simp only [List.length_cons] at this
      omega
    induction s with
    | nil => exact ⟨0, d, rfl⟩
    | cons x s ih =>
      obtain ⟨f, r, h⟩ := ih fun y hy => hs y (List.mem_cons_of_mem _ hy)
      exact ⟨f + 1, r, by rw [walk, if_pos (hall x (hs x List.mem_cons_self)), h]⟩
  | succ k ihk =>
    intro s d hs hd hdU hk
    induction s with
    | nil => exact ⟨0, d, rfl⟩
    | cons x s ih =>
      by_cases hx : x ∈ d
      · obtain ⟨f, r, h⟩ := ih fun y hy => hs y (List.mem_cons_of_mem _ hy)
        exact ⟨f + 1, r, by rw [walk, if_pos hx, h]⟩
      · have hxU := hs x List.mem_cons_self
        obtain ⟨f, r, h⟩ := ihk (push (d ++ [x]) s (refs x)) (d ++ [x])
          (fun y hy => (hp.sub _ _ _ y hy).elim (fun h => hs y (List.mem_cons_of_mem _ h))
            (fun h => hU x hxU y h))
          (List.nodup_append.2 ⟨hd, by simp, fun a ha b hb e =>
            hx (by rw [← List.mem_singleton.1 hb, ← e]; exact ha)⟩)
          (List.append_subset.2 ⟨hdU, by simpa using hxU⟩)
          (by rw [List.length_append]; simp only [List.length_singleton]; omega)
        exact ⟨f + 1, r, by rw [walk, if_neg hx, h]⟩

/-- `y` can be reached from `x` along references. -/
abbrev Walk.Reach (refs : ℕ → List ℕ) : ℕ → ℕ → Prop :=
  Relation.ReflTransGen fun x y => y ∈ refs x

theorem walk_spec (hp : GoodPush push) (x0 : ℕ) (f : ℕ) : ∀ (s d r : List ℕ),
    d.Nodup → (∀ x ∈ s, Walk.Reach refs x0 x) → (∀ x ∈ d, Walk.Reach refs x0 x) →
    (x0 ∈ s ∨ x0 ∈ d) → (∀ x ∈ d, ∀ y ∈ refs x, y ∈ d ∨ y ∈ s) →
    walk refs push f s d = some r →
    r.Nodup ∧ (∀ x, x ∈ r ↔ Walk.Reach refs x0 x) ∧ d <+: r := by
  induction f with
  | zero =>
    intro s d r hd hs hdr h0 hcl h
    cases s with
    | cons x s => cases h
    | nil =>
      rw [walk] at h
      cases h
      refine ⟨hd, fun x => ⟨hdr x, fun hx => ?_⟩, List.prefix_refl _⟩
      induction hx with
      | refl => simpa using h0
      | tail _ hy ih => simpa using hcl _ ih _ hy
  | succ f ih =>
    intro s d r hd hs hdr h0 hcl h
    cases s with
    | nil =>
      rw [walk] at h
      cases h
      refine ⟨hd, fun x => ⟨hdr x, fun hx => ?_⟩, List.prefix_refl _⟩
      induction hx with
      | refl => simpa using h0
      | tail _ hy ih => simpa using hcl _ ih _ hy
    | cons x s =>
      rw [walk] at h
      split_ifs at h with hx
      · refine ih s d r hd (fun y hy => hs y (List.mem_cons_of_mem _ hy)) hdr ?_ ?_ h
        · rcases h0 with h0 | h0
          · rcases List.mem_cons.1 h0 with rfl | h0
            · exact Or.inr hx
            · exact Or.inl h0
          · exact Or.inr h0
        · intro z hz y hy
          rcases hcl z hz y hy with h | h
          · exact Or.inl h
          · rcases List.mem_cons.1 h with rfl | h
            · exact Or.inl hx
            · exact Or.inr h
      · have hxr := hs x List.mem_cons_self
        obtain ⟨a, b, c⟩ := ih (push (d ++ [x]) s (refs x)) (d ++ [x]) r
          (List.nodup_append.2 ⟨hd, by simp, fun a ha b hb e =>
            hx (by rw [← List.mem_singleton.1 hb, ← e]; exact ha)⟩)
          (fun y hy => (hp.sub _ _ _ y hy).elim (fun h => hs y (List.mem_cons_of_mem _ h))
            (fun h => hxr.tail h))
          (fun y hy => (List.mem_append.1 hy).elim (hdr y)
            (fun h => by rw [List.mem_singleton.1 h]; exact hxr))
          (by
            rcases h0 with h0 | h0
            · rcases List.mem_cons.1 h0 with rfl | h0
              · exact Or.inr (by simp)
              · exact Or.inl (hp.keep _ _ _ _ h0)
            · exact Or.inr (by simp [h0]))
          (by
            intro z hz y hy
            by_cases hyd : y ∈ d ++ [x]
            · exact Or.inl hyd
            · right
              rcases List.mem_append.1 hz with hz | hz
              · rcases hcl z hz y hy with h | h
                · exact absurd (List.mem_append_left _ h) hyd
                · rcases List.mem_cons.1 h with rfl | h
                  · exact absurd (by simp) hyd
                  · exact hp.keep _ _ _ _ h
              · rw [List.mem_singleton.1 hz] at hy
                exact hp.add _ _ _ _ hy hyd) h
        exact ⟨a, b, (List.prefix_append d [x]).trans c⟩

end Verif
