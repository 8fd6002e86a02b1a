import Verif.Edit.Metric

/-!
# Lemmas about the BK tree

Helper lemmas only.
-/

namespace Verif
namespace Edit

open EditSpec

variable {α : Type} [DecidableEq α]

mutual
/-- The terms in a tree. -/
def BK.terms : BK α → List (List α)
  | .node t cs => t :: BK.termsKids cs
/-- The terms below a node. -/
def BK.termsKids : List (Nat × BK α) → List (List α)
  | [] => []
  | (_, c) :: rest => BK.terms c ++ BK.termsKids rest
end

omit [DecidableEq α] in
theorem BK.mem_termsKids {cs : List (Nat × BK α)} {w : List α} :
    w ∈ BK.termsKids cs ↔ ∃ p ∈ cs, w ∈ BK.terms p.2 := by
  induction cs with
  | nil => simp [BK.termsKids]
  | cons p cs ih =>
    obtain ⟨d, c⟩ := p
    simp [BK.termsKids, ih]

/-- Every term below a child is at the distance under which the child is filed. -/
inductive BKGood : BK α → Prop where
  | node (t : List α) (cs : List (Nat × BK α)) : (cs.map Prod.fst).Nodup →
      (∀ p ∈ cs, BKGood p.2) →
      (∀ p ∈ cs, ∀ w ∈ BK.terms p.2, dist unitCosts t w = p.1) → BKGood (.node t cs)

mutual

theorem BK.insert_ok (n : BK α) (hn : BKGood n) (o : List α) :
    ∃ n', BK.insert n o = .ok n' ∧ BKGood n' ∧ (BK.terms n').Perm (o :: BK.terms n) := by
  match n, hn with
  | .node t cs, .node _ _ hnd hg hd =>
    obtain ⟨cs', h1, h2, h3, h4, h5⟩ := BK.insertKids_ok cs hg (dist unitCosts t o) o
    rw [BK.insert, levenshtein_ok]
    simp only
    rw [h1]
    refine ⟨_, rfl, .node _ _ ?_ h2 ?_, ?_⟩
    · rw [h3]
      split
      · exact hnd
      · rename_i hk
        rw [List.nodup_append]
        exact ⟨hnd, by simp, by
          intro a ha b hb
          rw [List.mem_singleton] at hb
          rintro rfl
          exact hk (hb ▸ ha)⟩
    · intro p hp w hw
      rcases h4 p hp w hw with ⟨rfl, h⟩ | ⟨q, hq, h, hwq⟩
      · exact h.symm
      · rw [← h]
        exact hd q hq w hwq
    · rw [BK.terms, BK.terms]
      exact (h5.cons t).trans (List.Perm.swap o t _)

theorem BK.insertKids_ok (cs : List (Nat × BK α)) (hg : ∀ p ∈ cs, BKGood p.2) (d : Nat)
    (o : List α) :
    ∃ cs', BK.insertKids d o cs = .ok cs' ∧ (∀ p ∈ cs', BKGood p.2) ∧
      cs'.map Prod.fst = (if d ∈ cs.map Prod.fst then cs.map Prod.fst
        else cs.map Prod.fst ++ [d]) ∧
      (∀ p ∈ cs', ∀ w ∈ BK.terms p.2, (w = o ∧ p.1 = d) ∨
        ∃ q ∈ cs, q.1 = p.1 ∧ w ∈ BK.terms q.2) ∧
      (BK.termsKids cs').Perm (o :: BK.termsKids cs) := by
  match cs with
  | [] =>
    refine ⟨[(d, .node o [])], by rw [BK.insertKids], ?_, by simp, ?_, ?_⟩
    · intro p hp
      rw [List.mem_singleton] at hp
      subst hp
      exact .node _ _ (by simp) (by simp) (by simp)
    · intro p hp w hw
      rw [List.mem_singleton] at hp
      subst hp
      simp [BK.terms, BK.termsKids] at hw
      exact .inl ⟨hw, rfl⟩
    · simp [BK.termsKids, BK.terms]
  | (k, c) :: rest =>
    have hc : BKGood c := hg (k, c) (by simp)
    rw [BK.insertKids]
    by_cases hk : k = d
    · rw [if_pos hk]
      obtain ⟨c', h1, h2, h3⟩ := BK.insert_ok c hc o
      rw [h1]
      refine ⟨_, rfl, ?_, by simp [hk], ?_, ?_⟩
      · intro p hp
        rcases List.mem_cons.mp hp with rfl | hp
        · exact h2
        · exact hg p (by simp [hp])
      · intro p hp w hw
        rcases List.mem_cons.mp hp with rfl | hp
        · rcases List.mem_cons.mp (h3.subset hw) with rfl | hw
          · exact .inl ⟨rfl, hk⟩
          · exact .inr ⟨(k, c), by simp, rfl, hw⟩
        · exact .inr ⟨p, by simp [hp], rfl, hw⟩
      · rw [BK.termsKids, BK.termsKids]
        exact h3.append_right _
    · rw [if_neg hk]
      obtain ⟨rest', h1, h2, h3, h4, h5⟩ := BK.insertKids_ok rest
        (fun p hp => hg p (by simp [hp])) d o
      rw [h1]
      refine ⟨_, rfl, ?_, ?_, ?_, ?_⟩
      · intro p hp
        rcases List.mem_cons.mp hp with rfl | hp
        · exact hc
        · exact h2 p hp
      · rw [List.map_cons, h3]
        simp only [List.map_cons, List.mem_cons]
        have : ¬ d = k := fun h => hk h.symm
        by_cases hm : d ∈ rest.map Prod.fst <;> simp [hm, this]
      · intro p hp w hw
        rcases List.mem_cons.mp hp with rfl | hp
        · exact .inr ⟨(k, c), by simp, rfl, hw⟩
        · rcases h4 p hp w hw with h | ⟨q, hq, h⟩
          · exact .inl h
          · exact .inr ⟨q, by simp [hq], h⟩
      · rw [BK.termsKids, BK.termsKids]
        exact (h5.append_left _).trans List.perm_middle

end

theorem BK.build_ok (first : List α) (words : List (List α)) :
    ∃ n, BK.build first words = .ok n ∧ BKGood n ∧ (BK.terms n).Perm (first :: words) := by
  have key : ∀ (words : List (List α)) (n : BK α), BKGood n →
      ∃ n', words.foldlM BK.insert n = .ok n' ∧ BKGood n' ∧
        (BK.terms n').Perm (words ++ BK.terms n) := by
    intro words
    induction words with
    | nil => intro n hn; exact ⟨n, rfl, hn, by simp⟩
    | cons w ws ih =>
      intro n hn
      obtain ⟨n1, h1, h2, h3⟩ := BK.insert_ok n hn w
      obtain ⟨n2, h4, h5, h6⟩ := ih n1 h2
      refine ⟨n2, ?_, h5, ?_⟩
      · rw [List.foldlM_cons, h1]
        exact h4
      · exact h6.trans ((h3.append_left ws).trans List.perm_middle)
  obtain ⟨n, h1, h2, h3⟩ := key words (.node first []) (.node _ _ (by simp) (by simp) (by simp))
  refine ⟨n, h1, h2, h3.trans ?_⟩
  simp only [BK.terms, BK.termsKids]
  exact List.perm_append_comm

omit [DecidableEq α] in
theorem mem_rangeFrom {lo hi : Int} {i : Nat} : i ∈ rangeFrom lo hi ↔ lo ≤ i ∧ (i : Int) < hi := by
  unfold rangeFrom
  rw [List.mem_filter, List.mem_range]
  simp only [decide_eq_true_eq]
  omega

omit [DecidableEq α] in
theorem bkLoop_ok (kids : List (Nat × Except PyErr (Nat × List (List α))))
    (hk : ∀ d r, kids.lookup d = some r → ∃ x, r = .ok x) (dists : List Nat) (counter : Nat)
    (out : List (List α)) :
    ∃ c l, bkLoop kids dists counter out = .ok (c, l) ∧ ∀ w, w ∈ l ↔ w ∈ out ∨
      ∃ d ∈ dists, ∃ x, kids.lookup d = some (.ok x) ∧ w ∈ x.2 := by
  induction dists generalizing counter out with
  | nil => exact ⟨counter, out, rfl, by simp⟩
  | cons d dists ih =>
    rw [bkLoop]
    cases hl : kids.lookup d with
    | none =>
      obtain ⟨c, l, h1, h2⟩ := ih counter out
      refine ⟨c, l, h1, fun w => ?_⟩
      rw [h2]
      simp [hl]
    | some r =>
      obtain ⟨x, rfl⟩ := hk d r hl
      obtain ⟨c, l, h1, h2⟩ := ih (counter + x.1) (out ++ x.2)
      refine ⟨c, l, h1, fun w => ?_⟩
      rw [h2, List.mem_append]
      simp only [List.mem_cons, exists_eq_or_imp, hl, Option.some.injEq, Except.ok.injEq]
      constructor
      · rintro ((h | h) | h)
        · exact .inl h
        · exact .inr (.inl ⟨x, rfl, h⟩)
        · exact .inr (.inr h)
      · rintro (h | ⟨y, rfl, h⟩ | h)
        · exact .inl (.inl h)
        · exact .inl (.inr h)
        · exact .inr h

mutual

theorem BK.search_ok (n : BK α) (hn : BKGood n) (term : List α) (k : Int) :
    ∃ c l, BK.search n term k = .ok (c, l) ∧
      ∀ w, w ∈ l ↔ w ∈ BK.terms n ∧ ((dist unitCosts w term : Nat) : Int) ≤ k := by
  match n, hn with
  | .node t cs, .node _ _ hnd hg hd =>
    obtain ⟨h1, h2⟩ := BK.searchKids_ok cs hg hnd term k
    rw [BK.search, levenshtein_ok]
    simp only
    obtain ⟨c, l, h3, h4⟩ := bkLoop_ok (BK.searchKids cs term k) (by
        intro d r hr
        obtain ⟨p, hp, c, l, rfl, -⟩ := h1 d r hr
        exact ⟨_, rfl⟩)
      (rangeFrom (max 0 (((dist unitCosts t term : Nat) : Int) - k)) (((dist unitCosts t term : Nat) : Int) + k + 1))
      1 (if ((dist unitCosts t term : Nat) : Int) ≤ k then [t] else [])
    refine ⟨c, l, h3, fun w => ?_⟩
    rw [h4, BK.terms, List.mem_cons, BK.mem_termsKids]
    constructor
    · rintro (h | ⟨d, -, x, hx, hw⟩)
      · split at h
        · rename_i hle
          rw [List.mem_singleton] at h
          exact ⟨.inl h, h ▸ hle⟩
        · simp at h
      · obtain ⟨p, hp, c', l', he, hl'⟩ := h1 d _ hx
        cases he
        obtain ⟨h5, h6⟩ := (hl' w).mp hw
        exact ⟨.inr ⟨p, hp.1, h5⟩, h6⟩
    · rintro ⟨rfl | ⟨p, hp, hw⟩, hle⟩
      · left
        rw [if_pos hle]
        simp
      · right
        obtain ⟨c', l', hlk, hl'⟩ := h2 p hp
        refine ⟨p.1, ?_, (c', l'), hlk, (hl' w).mpr ⟨hw, hle⟩⟩
        rw [mem_rangeFrom]
        have hdw := hd p hp w hw
        have t1 := unit_triangle t w term
        have t2 := unit_triangle t term w
        have t3 := unit_symm term w
        omega

theorem BK.searchKids_ok (cs : List (Nat × BK α)) (hg : ∀ p ∈ cs, BKGood p.2)
    (hnd : (cs.map Prod.fst).Nodup) (term : List α) (k : Int) :
    (∀ d r, (BK.searchKids cs term k).lookup d = some r → ∃ p, (p ∈ cs ∧ p.1 = d) ∧ ∃ c l,
      r = .ok (c, l) ∧ ∀ w, w ∈ l ↔ w ∈ BK.terms p.2 ∧ ((dist unitCosts w term : Nat) : Int) ≤ k) ∧
    (∀ p ∈ cs, ∃ c l, (BK.searchKids cs term k).lookup p.1 = some (.ok (c, l)) ∧
      ∀ w, w ∈ l ↔ w ∈ BK.terms p.2 ∧ ((dist unitCosts w term : Nat) : Int) ≤ k) := by
  match cs with
  | [] => simp [BK.searchKids]
  | (d0, c0) :: rest =>
    obtain ⟨c, l, h1, h2⟩ := BK.search_ok c0 (hg (d0, c0) (by simp)) term k
    rw [List.map_cons, List.nodup_cons] at hnd
    obtain ⟨h3, h4⟩ := BK.searchKids_ok rest (fun p hp => hg p (by simp [hp])) hnd.2 term k
    rw [BK.searchKids, h1]
    constructor
    · intro d r hr
      rw [List.lookup_cons] at hr
      by_cases hd : d = d0
      · simp only [show (d == d0) = true by simpa using hd, Option.some.injEq] at hr
        subst hr
        exact ⟨(d0, c0), ⟨by simp, hd.symm⟩, c, l, rfl, h2⟩
      · simp only [show (d == d0) = false by simpa using hd] at hr
        obtain ⟨p, hp, h⟩ := h3 d r hr
        exact ⟨p, ⟨by simp [hp.1], hp.2⟩, h⟩
    · intro p hp
      rw [List.lookup_cons]
      rcases List.mem_cons.mp hp with rfl | hp
      · simp only [beq_self_eq_true]
        exact ⟨c, l, rfl, h2⟩
      · have hd : p.1 ≠ d0 := by
          intro h
          exact hnd.1 (List.mem_map.mpr ⟨p, hp, h⟩)
        simp only [show (p.1 == d0) = false by simpa using hd]
        exact h4 p hp

end

end Edit
end Verif
