import Verif.Bow.Model
import Verif.Bow.Spec
import Verif.Core.Props
import Mathlib.Data.List.Sublists
import Mathlib.Data.List.ProdSigma
import Mathlib.Data.List.MinMax

/-!
# Bag-of-words distance: index matchings and assignments of bags
-/

namespace Verif

open BowSpec GramSpec

section generic

variable {α : Type} [Inhabited α]

/-- `i`-th item. -/
def item (a : List α) (i : ℕ) : α := a[i]?.getD default

theorem map_item_range (a : List α) : (List.range a.length).map (item a) = a := by
  apply List.ext_getElem
  · simp
  · intro i h1 h2
    simp [item, h2]

theorem items_le {a : List α} {I : List ℕ} (hn : I.Nodup) (hI : ∀ i ∈ I, i < a.length) :
    ((I.map (item a) : List α) : Multiset α) ≤ (a : Multiset α) := by
  have h : I.Subperm (List.range a.length) :=
    hn.subperm (fun i hi => List.mem_range.2 (hI i hi))
  have := Multiset.map_le_map (f := item a) (Multiset.coe_le.2 h)
  rwa [Multiset.map_coe, Multiset.map_coe, map_item_range] at this

omit [Inhabited α] in
theorem lift_perm {β : Type} [DecidableEq β] {f : β → α} {s : List α} {t : List β}
    (h : (t.map f).Perm s) : ∃ t' : List β, t'.Perm t ∧ t'.map f = s := by
  induction s generalizing t with
  | nil =>
    have : t = [] := by simpa using h.length_eq
    exact ⟨[], by rw [this], rfl⟩
  | cons x s ih =>
    obtain ⟨i, hi, rfl⟩ := List.mem_map.1 (h.symm.subset List.mem_cons_self)
    have hp := List.perm_cons_erase hi
    have h2 : (f i :: (t.erase i).map f).Perm (f i :: s) := (hp.map f).symm.trans h
    obtain ⟨t', h3, h4⟩ := ih h2.cons_inv
    exact ⟨i :: t', (h3.cons i).trans hp.symm, by rw [List.map_cons, h4]⟩

theorem exists_indices {a s : List α} (h : (s : Multiset α) ≤ (a : Multiset α)) :
    ∃ I : List ℕ, I.Nodup ∧ (∀ i ∈ I, i < a.length) ∧ I.map (item a) = s := by
  obtain ⟨l, h1, h2⟩ := Multiset.coe_le.1 h
  rw [← map_item_range a] at h2
  obtain ⟨t, h3, rfl⟩ := List.sublist_map_iff.1 h2
  obtain ⟨I, h4, h5⟩ := lift_perm h1
  refine ⟨I, h4.nodup_iff.2 (h3.nodup List.nodup_range), fun i hi => ?_, h5⟩
  exact List.mem_range.1 (h3.subset (h4.subset hi))

/-- Matrix of distances. -/
def distMatrix (d : α → α → ℚ) (a b : List α) : List (List ℚ) :=
  a.map fun x => b.map fun y => d x y

theorem entry_distMatrix (d : α → α → ℚ) {a b : List α} {i j : ℕ} (hi : i < a.length)
    (hj : j < b.length) : entry (distMatrix d a b) i j = d (item a i) (item b j) := by
  simp [entry, distMatrix, item, hi, hj]

theorem assign_of_match (d : α → α → ℚ) {a b : List α} {P : List (ℕ × ℕ)}
    (h : IsMatch a.length b.length P) :
    ∃ M, IsAssign (a : Multiset α) (b : Multiset α) M ∧
      matchCost (distMatrix d a b) P = assignCost d M := by
  obtain ⟨h1, h2, h3, h4⟩ := h
  refine ⟨((P.map fun p => (item a p.1, item b p.2) : List (α × α)) : Multiset (α × α)),
    ⟨?_, ?_, ?_⟩, ?_⟩
  · have := items_le (a := a) h1 (by
      intro i hi
      obtain ⟨p, hp, rfl⟩ := List.mem_map.1 hi
      exact (h3 p hp).1)
    simpa [Function.comp_def] using this
  · have := items_le (a := b) h2 (by
      intro i hi
      obtain ⟨p, hp, rfl⟩ := List.mem_map.1 hi
      exact (h3 p hp).2)
    simpa [Function.comp_def] using this
  · simpa using h4
  · unfold matchCost assignCost
    rw [Multiset.map_coe, Multiset.sum_coe, List.map_map]
    congr 1
    apply List.map_congr_left
    intro p hp
    exact entry_distMatrix d (h3 p hp).1 (h3 p hp).2

theorem match_of_assign (d : α → α → ℚ) {a b : List α} {M : Multiset (α × α)}
    (h : IsAssign (a : Multiset α) (b : Multiset α) M) :
    ∃ P, IsMatch a.length b.length P ∧ matchCost (distMatrix d a b) P = assignCost d M := by
  obtain ⟨h1, h2, h3⟩ := h
  induction M using Quotient.inductionOn with
  | h L =>
  simp only [Multiset.quot_mk_to_coe, Multiset.map_coe, Multiset.coe_card] at h1 h2 h3
  obtain ⟨I, i1, i2, i3⟩ := exists_indices h1
  obtain ⟨J, j1, j2, j3⟩ := exists_indices h2
  have li : I.length = L.length := by simpa using congrArg List.length i3
  have lj : J.length = L.length := by simpa using congrArg List.length j3
  have f1 : (I.zip J).map Prod.fst = I := List.map_fst_zip (by omega)
  have f2 : (I.zip J).map Prod.snd = J := List.map_snd_zip (by omega)
  have hm : ∀ p ∈ I.zip J, p.1 < a.length ∧ p.2 < b.length := fun p hp =>
    ⟨i2 _ (List.of_mem_zip hp).1, j2 _ (List.of_mem_zip hp).2⟩
  refine ⟨I.zip J, ⟨by rw [f1]; exact i1, by rw [f2]; exact j1, hm, ?_⟩, ?_⟩
  · rw [List.length_zip, li, lj, min_self]; simpa using h3
  · unfold matchCost assignCost
    rw [Multiset.quot_mk_to_coe, Multiset.map_coe, Multiset.sum_coe]
    congr 1
    have : L = (I.zip J).map (fun p => (item a p.1, item b p.2)) := by
      apply List.ext_getElem
      · simp [li, lj]
      · intro k k1 k2
        have e1 : (I.map (item a))[k]'(by simpa [li] using k1) = (L.map Prod.fst)[k]'(by simpa using k1) := by
          simp only [i3]
        have e2 : (J.map (item b))[k]'(by simpa [lj] using k1) = (L.map Prod.snd)[k]'(by simpa using k1) := by
          simp only [j3]
        simp only [List.getElem_map] at e1 e2
        simp [e1, e2]
    conv_rhs => rw [this]
    rw [List.map_map]
    apply List.map_congr_left
    intro p hp
    exact entry_distMatrix d (hm p hp).1 (hm p hp).2

/-- What an optimal solver finds on the matrix of distances is the least assignment cost. -/
theorem lsa_least {lsa : List (List ℚ) → List (ℕ × ℕ)} (hl : LsaOk lsa) (d : α → α → ℚ)
    (a b : List α) :
    IsLeastAssign d a b (matchCost (distMatrix d a b) (lsa (distMatrix d a b))) := by
  obtain ⟨h1, h2⟩ := hl (distMatrix d a b) b.length (by
    intro row hr
    obtain ⟨x, _, rfl⟩ := List.mem_map.1 hr
    simp)
  have e : (distMatrix d a b).length = a.length := by simp [distMatrix]
  rw [e] at h1 h2
  constructor
  · obtain ⟨M, hM, c⟩ := assign_of_match d h1
    exact ⟨M, hM, c⟩
  · rintro c ⟨M, hM, rfl⟩
    obtain ⟨P, hP, e'⟩ := match_of_assign d hM
    rw [← e']
    exact h2 P hP

omit [Inhabited α] in
theorem BowSpec.IsLeastAssign.unique {d : α → α → ℚ} {a b : List α} {c c' : ℚ}
    (h : IsLeastAssign d a b c) (h' : IsLeastAssign d a b c') : c = c' :=
  IsLeast.unique h h'

omit [Inhabited α] in
theorem BowSpec.IsLeastAssign.perm {d : α → α → ℚ} {a b a' b' : List α} {c : ℚ}
    (h : IsLeastAssign d a b c) (ha : a.Perm a') (hb : b.Perm b') : IsLeastAssign d a' b' c := by
  unfold IsLeastAssign at *
  rwa [← Multiset.coe_eq_coe.2 ha, ← Multiset.coe_eq_coe.2 hb]

omit [Inhabited α] in
theorem BowSpec.IsAssign.swap {A B : Multiset α} {M : Multiset (α × α)} (h : IsAssign A B M) :
    IsAssign B A (M.map Prod.swap) := by
  obtain ⟨h1, h2, h3⟩ := h
  refine ⟨?_, ?_, ?_⟩
  · simpa [Multiset.map_map, Function.comp_def] using h2
  · simpa [Multiset.map_map, Function.comp_def] using h1
  · rw [Multiset.card_map, h3, min_comm]

omit [Inhabited α] in
theorem assignCost_swap {d : α → α → ℚ} (hd : ∀ x y, d x y = d y x) (M : Multiset (α × α)) :
    assignCost d (M.map Prod.swap) = assignCost d M := by
  unfold assignCost
  rw [Multiset.map_map]
  congr 1
  apply Multiset.map_congr rfl
  intro p _
  exact hd _ _

omit [Inhabited α] in
theorem BowSpec.IsLeastAssign.swap {d : α → α → ℚ} (hd : ∀ x y, d x y = d y x) {a b : List α} {c : ℚ}
    (h : IsLeastAssign d a b c) : IsLeastAssign d b a c := by
  obtain ⟨⟨M, hM, rfl⟩, h2⟩ := h
  refine ⟨⟨_, IsAssign.swap hM, (assignCost_swap hd M).symm⟩, ?_⟩
  rintro c ⟨N, hN, rfl⟩
  rw [← assignCost_swap hd N]
  exact h2 ⟨_, IsAssign.swap hN, rfl⟩

omit [Inhabited α] in
/-- Distances in `[0, 1]` give totals between zero and the size of the smaller bag. -/
theorem BowSpec.IsLeastAssign.range {d : α → α → ℚ} {a b : List α} {c : ℚ}
    (hd : ∀ x ∈ a, ∀ y ∈ b, 0 ≤ d x y ∧ d x y ≤ 1)
    (h : IsLeastAssign d a b c) : 0 ≤ c ∧ c ≤ min (a.length : ℚ) b.length := by
  obtain ⟨⟨M, ⟨h1, h2, h3⟩, rfl⟩, -⟩ := h
  have hM : ∀ p ∈ M, 0 ≤ d p.1 p.2 ∧ d p.1 p.2 ≤ 1 := by
    intro p hp
    exact hd _ (by simpa using Multiset.mem_of_le h1 (Multiset.mem_map_of_mem Prod.fst hp))
      _ (by simpa using Multiset.mem_of_le h2 (Multiset.mem_map_of_mem Prod.snd hp))
  have key : 0 ≤ assignCost d M ∧ assignCost d M ≤ M.card := by
    clear h1 h2 h3
    unfold assignCost
    induction M using Multiset.induction with
    | empty => simp
    | cons p M ih =>
      have hp := hM p (Multiset.mem_cons_self _ _)
      have := ih (fun q hq => hM q (Multiset.mem_cons_of_mem hq))
      simp only [Multiset.map_cons, Multiset.sum_cons, Multiset.card_cons]
      push_cast
      exact ⟨by linarith, by linarith⟩
  rw [h3] at key
  simpa using key

omit [Inhabited α] in
/-- A bag assigned to itself at no cost. -/
theorem isLeastAssign_self {d : α → α → ℚ} {a : List α} (h0 : ∀ x ∈ a, d x x = 0)
    (hd : ∀ x ∈ a, ∀ y ∈ a, 0 ≤ d x y) : IsLeastAssign d a a 0 := by
  constructor
  · refine ⟨(a : Multiset α).map (fun x => (x, x)), ⟨by simp [Function.comp_def], by simp [Function.comp_def], by simp⟩, ?_⟩
    unfold assignCost
    rw [Multiset.map_map]
    symm
    apply Multiset.sum_eq_zero
    intro x hx
    obtain ⟨y, hy, rfl⟩ := Multiset.mem_map.1 hx
    exact h0 y (by simpa using hy)
  · rintro c ⟨M, ⟨h1, h2, _⟩, rfl⟩
    unfold assignCost
    apply Multiset.sum_nonneg
    intro x hx
    obtain ⟨p, hp, rfl⟩ := Multiset.mem_map.1 hx
    exact hd _ (by simpa using Multiset.mem_of_le h1 (Multiset.mem_map_of_mem Prod.fst hp))
      _ (by simpa using Multiset.mem_of_le h2 (Multiset.mem_map_of_mem Prod.snd hp))

omit [Inhabited α] in
/-- Bags of the same size at total distance zero are equal if the distance separates words. -/
theorem perm_of_leastAssign_zero {d : α → α → ℚ} {a b : List α} (hl : a.length = b.length)
    (hd : ∀ x ∈ a, ∀ y ∈ b, 0 ≤ d x y) (h0 : ∀ x ∈ a, ∀ y ∈ b, d x y = 0 → x = y)
    (h : IsLeastAssign d a b 0) : a.Perm b := by
  obtain ⟨⟨M, ⟨h1, h2, h3⟩, e⟩, -⟩ := h
  have hz : ∀ p ∈ M, d p.1 p.2 = 0 := by
    have hnn : ∀ p ∈ M, 0 ≤ d p.1 p.2 := fun p hp =>
      hd _ (by simpa using Multiset.mem_of_le h1 (Multiset.mem_map_of_mem Prod.fst hp))
        _ (by simpa using Multiset.mem_of_le h2 (Multiset.mem_map_of_mem Prod.snd hp))
    clear h1 h2 h3 h0 hd hl
    unfold assignCost at e
    induction M using Multiset.induction with
    | empty => simp
    | cons p M ih =>
      simp only [Multiset.map_cons, Multiset.sum_cons] at e
      have a1 := hnn p (Multiset.mem_cons_self _ _)
      have a2 : 0 ≤ (M.map fun p => d p.1 p.2).sum := by
        apply Multiset.sum_nonneg
        intro x hx
        obtain ⟨q, hq, rfl⟩ := Multiset.mem_map.1 hx
        exact hnn q (Multiset.mem_cons_of_mem hq)
      intro q hq
      rcases Multiset.mem_cons.1 hq with rfl | hq
      · linarith
      · exact ih (by linarith) (fun q hq => hnn q (Multiset.mem_cons_of_mem hq)) q hq
  have hsame : M.map Prod.fst = M.map Prod.snd := by
    apply Multiset.map_congr rfl
    intro p hp
    exact h0 _ (by simpa using Multiset.mem_of_le h1 (Multiset.mem_map_of_mem Prod.fst hp))
        _ (by simpa using Multiset.mem_of_le h2 (Multiset.mem_map_of_mem Prod.snd hp)) (hz p hp)
  simp only [Multiset.coe_card, hl, min_self] at h3
  have e1 : M.map Prod.fst = (a : Multiset α) :=
    Multiset.eq_of_le_of_card_le h1 (by simp [h3, hl])
  have e2 : M.map Prod.snd = (b : Multiset α) :=
    Multiset.eq_of_le_of_card_le h2 (by simp [h3])
  exact Multiset.coe_eq_coe.1 (by rw [← e1, hsame, e2])

end generic

/-! ### A solver meeting the contract -/

/-- All index matchings (as sublists of the product), by enumeration. -/
def allMatches (R C : ℕ) : List (List (ℕ × ℕ)) :=
  ((List.product (List.range R) (List.range C)).sublistsLen (min R C)).filter
    (fun P => (P.map Prod.fst).Nodup ∧ (P.map Prod.snd).Nodup)

/-- The cheaper of two matchings. -/
def cheaper (m : List (List ℚ)) (P Q : List (ℕ × ℕ)) : List (ℕ × ℕ) :=
  if matchCost m Q < matchCost m P then Q else P

/-- Exhaustive search: a reference solver. -/
def bruteLsa (m : List (List ℚ)) : List (ℕ × ℕ) :=
  match allMatches m.length (m.head?.getD []).length with
  | [] => []
  | P :: Ps => Ps.foldl (cheaper m) P

theorem cheaper_fold (m : List (List ℚ)) (Ps : List (List (ℕ × ℕ))) (P : List (ℕ × ℕ)) :
    Ps.foldl (cheaper m) P ∈ P :: Ps ∧ ∀ Q ∈ P :: Ps, matchCost m (Ps.foldl (cheaper m) P) ≤ matchCost m Q := by
  induction Ps generalizing P with
  | nil => simp
  | cons R Ps ih =>
    obtain ⟨h1, h2⟩ := ih (cheaper m P R)
    have hc : cheaper m P R = P ∨ cheaper m P R = R := by unfold cheaper; split <;> simp
    have hP : matchCost m (cheaper m P R) ≤ matchCost m P := by
      unfold cheaper; split
      · linarith
      · exact le_refl _
    have hR : matchCost m (cheaper m P R) ≤ matchCost m R := by
      unfold cheaper; split
      · exact le_refl _
      · linarith
    have h0 := h2 _ List.mem_cons_self
    rw [List.foldl_cons]
    constructor
    · rcases List.mem_cons.1 h1 with h | h
      · rw [h]
        rcases hc with e | e <;> rw [e] <;> simp
      · simp [h]
    · intro Q hQ
      rcases List.mem_cons.1 hQ with rfl | hQ
      · exact h0.trans hP
      · rcases List.mem_cons.1 hQ with rfl | hQ
        · exact h0.trans hR
        · exact h2 Q (List.mem_cons_of_mem _ hQ)

theorem matchCost_perm {m : List (List ℚ)} {P Q : List (ℕ × ℕ)} (h : P.Perm Q) :
    matchCost m P = matchCost m Q := (h.map _).sum_eq

theorem mem_allMatches {R C : ℕ} {P : List (ℕ × ℕ)} (h : P ∈ allMatches R C) : IsMatch R C P := by
  unfold allMatches at h
  rw [List.mem_filter, List.mem_sublistsLen] at h
  obtain ⟨⟨h1, h2⟩, h3⟩ := h
  simp only [decide_eq_true_eq] at h3
  refine ⟨h3.1, h3.2, fun p hp => ?_, h2⟩
  have := h1.subset hp
  rw [← Prod.mk.eta (p := p), List.pair_mem_product] at this
  simpa using this

theorem exists_allMatches {R C : ℕ} {P : List (ℕ × ℕ)} (h : IsMatch R C P) :
    ∃ Q ∈ allMatches R C, Q.Perm P := by
  obtain ⟨h1, h2, h3, h4⟩ := h
  have hsub : P.Subperm (List.product (List.range R) (List.range C)) := by
    apply (List.Nodup.of_map _ h1).subperm
    intro p hp
    rw [← Prod.mk.eta (p := p), List.pair_mem_product]
    simpa using h3 p hp
  obtain ⟨Q, q1, q2⟩ := hsub
  refine ⟨Q, ?_, q1⟩
  unfold allMatches
  rw [List.mem_filter, List.mem_sublistsLen]
  refine ⟨⟨q2, by rw [q1.length_eq, h4]⟩, ?_⟩
  simp only [decide_eq_true_eq]
  exact ⟨(q1.map _).nodup_iff.2 h1, (q1.map _).nodup_iff.2 h2⟩

theorem exists_match (R C : ℕ) : ∃ P, IsMatch R C P := by
  refine ⟨(List.range (min R C)).map (fun i => (i, i)), ?_, ?_, ?_, by simp⟩
  · simp [Function.comp_def, List.nodup_range]
  · simp [Function.comp_def, List.nodup_range]
  · intro p hp
    obtain ⟨i, hi, rfl⟩ := List.mem_map.1 hp
    simpa using hi

theorem bruteLsa_ok : LsaOk bruteLsa := by
  intro m C hm
  have hC : IsMatch m.length (m.head?.getD []).length = IsMatch m.length C := by
    cases m with
    | nil => funext P; simp [IsMatch]
    | cons r m => simp [hm r List.mem_cons_self]
  rw [← hC]
  unfold bruteLsa
  generalize (m.head?.getD []).length = D
  obtain ⟨P0, hP0⟩ := exists_match m.length D
  obtain ⟨Q0, hQ0, _⟩ := exists_allMatches hP0
  cases h : allMatches m.length D with
  | nil => rw [h] at hQ0; simp at hQ0
  | cons P Ps =>
    obtain ⟨h1, h2⟩ := cheaper_fold m Ps P
    rw [← h] at h1 h2
    refine ⟨mem_allMatches h1, fun P' hP' => ?_⟩
    obtain ⟨Q, hQ, hp⟩ := exists_allMatches hP'
    rw [← matchCost_perm hp]
    exact h2 Q hQ

/-! ### The call on valid words -/

/-- Distance used for a pair of words. -/
def bowDist (n : ℤ) (w₁ w₂ : List Char) : ℚ :=
  match nmd (.str w₁) (.str w₂) (.int n) false true with
  | .ok r => r
  | .error _ => if w₁ = w₂ then 0 else 1

theorem nmd_norm_cases {w₁ w₂ : List Char} (h₁ : Clean w₁) (h₂ : Clean w₂) {n : ℤ} (hn : 2 ≤ n) :
    nmd (.str w₁) (.str w₂) (.int n) false true = .ok (bowDist n w₁ w₂) ∨
      (nmd (.str w₁) (.str w₂) (.int n) false true = .error .zeroDivisionError ∧
        bowDist n w₁ w₂ = if w₁ = w₂ then 0 else 1) := by
  rcases (C16_complement h₁ h₂ hn).2 with ⟨h, _⟩ | ⟨d, s, h, _, _⟩
  · right; exact ⟨h, by unfold bowDist; rw [h]⟩
  · left; rw [h]; unfold bowDist; rw [h]

theorem bowCell_valid {w₁ w₂ : List Char} (h₁ : Clean w₁) (h₂ : Clean w₂) {n : ℤ} (hn : 2 ≤ n) :
    bowCell (.int n) (.str w₁) (.str w₂) = .ok (bowDist n w₁ w₂) := by
  unfold bowCell
  rcases nmd_norm_cases h₁ h₂ hn with h | ⟨h, h'⟩
  · rw [h]
  · rw [h, h']
    by_cases e : w₁ = w₂ <;> simp [e]

theorem mapM_ok {β γ : Type} {f : β → Except PyErr γ} {g : β → γ} {l : List β}
    (h : ∀ x ∈ l, f x = .ok (g x)) : l.mapM f = .ok (l.map g) := by
  induction l with
  | nil => rfl
  | cons x l ih =>
    rw [List.mapM_cons, h x List.mem_cons_self, ih (fun y hy => h y (List.mem_cons_of_mem _ hy))]
    rfl

theorem bowCosts_valid {a b : List (List Char)} (ha : ∀ w ∈ a, Clean w) (hb : ∀ w ∈ b, Clean w)
    {n : ℤ} (hn : 2 ≤ n) :
    bowCosts (.int n) (a.map .str) (b.map .str) = .ok (distMatrix (bowDist n) a b) := by
  unfold bowCosts
  rw [List.mapM_map]
  apply mapM_ok
  intro x hx
  simp only [Function.comp_apply]
  rw [List.mapM_map]
  apply mapM_ok
  intro y hy
  exact bowCell_valid (ha x hx) (hb y hy) hn

theorem bowEntry_ok {m : List (List ℚ)} {C : ℕ} (hm : ∀ row ∈ m, row.length = C) {p : ℕ × ℕ}
    (h1 : p.1 < m.length) (h2 : p.2 < C) : bowEntry m p = .ok (entry m p.1 p.2) := by
  unfold bowEntry entry
  have h3 : p.2 < (m[p.1]).length := by rw [hm _ (List.getElem_mem h1)]; exact h2
  rw [pyGet_ok h1]
  simp only [bind, Except.bind]
  rw [pyGet_ok h3]
  simp [h1, h3]

theorem fold_entries {m : List (List ℚ)} (s : ℚ) {P : List (ℕ × ℕ)}
    (h : ∀ p ∈ P, bowEntry m p = .ok (entry m p.1 p.2)) (x : ℚ) :
    P.foldlM (fun out p => do let c ← bowEntry m p; return out + s * c) x =
      (.ok (x + s * matchCost m P) : Except PyErr ℚ) := by
  induction P generalizing x with
  | nil => simp [matchCost, pure, Except.pure]
  | cons p P ih =>
    rw [List.foldlM_cons, h p List.mem_cons_self]
    simp only [bind, Except.bind, pure, Except.pure] at ih ⊢
    rw [ih (fun q hq => h q (List.mem_cons_of_mem _ hq))]
    congr 1
    simp only [matchCost, List.map_cons, List.sum_cons]
    ring

/-- Result of the call for a given assignment cost. -/
def bowResult (la lb : ℕ) (c : ℚ) (invert normalize : Bool) : Except PyErr ℚ :=
  let out := if invert then min (la : ℚ) lb - c else |(la : ℚ) - lb| + c
  if normalize then if max la lb = 0 then .error .zeroDivisionError else .ok (out / max (la : ℚ) lb)
  else .ok out

theorem bowNmd_valid {lsa : List (List ℚ) → List (ℕ × ℕ)} (hl : LsaOk lsa)
    {a b : List (List Char)} (ha : ∀ w ∈ a, Clean w) (hb : ∀ w ∈ b, Clean w) {n : ℤ} (hn : 2 ≤ n)
    (invert normalize : Bool) {c : ℚ} (hc : IsLeastAssign (bowDist n) a b c) :
    bowNmd lsa (a.map .str) (b.map .str) (.int n) invert normalize =
      bowResult a.length b.length c invert normalize := by
  have hrow : ∀ row ∈ distMatrix (bowDist n) a b, row.length = b.length := by
    intro row hr
    obtain ⟨x, _, rfl⟩ := List.mem_map.1 hr
    simp
  have hlen : (distMatrix (bowDist n) a b).length = a.length := by simp [distMatrix]
  obtain ⟨hm, _⟩ := hl _ _ hrow
  have hc' := (lsa_least hl (bowDist n) a b).unique hc
  have hpairs : (if distMatrix (bowDist n) a b = [] then [] else lsa (distMatrix (bowDist n) a b)) =
      lsa (distMatrix (bowDist n) a b) := by
    split_ifs with h
    · rw [h]
      have := hm.2.2.2
      rw [h] at this
      simp at this
      exact this.symm
    · rfl
  have hent : ∀ p ∈ lsa (distMatrix (bowDist n) a b),
      bowEntry (distMatrix (bowDist n) a b) p = .ok (entry (distMatrix (bowDist n) a b) p.1 p.2) :=
    fun p hp => bowEntry_ok hrow (hm.2.2.1 p hp).1 (hm.2.2.1 p hp).2
  have f1 := fold_entries (1 : ℚ) hent |(a.length : ℚ) - b.length|
  have f2 := fold_entries (-1 : ℚ) hent (min (a.length : ℚ) b.length)
  simp only [one_mul, neg_mul, ← sub_eq_add_neg, hc'] at f1 f2
  unfold bowNmd bowResult
  rw [bowCosts_valid ha hb hn]
  simp only [bind, Except.bind, hpairs, List.length_map] at f1 f2 ⊢
  cases invert <;> cases normalize <;> simp only [f1, f2, if_true, if_false, Bool.false_eq_true] <;> rfl

end Verif
