import Verif.Emd.Full

/-!
# Independent subproblems

* `emd_split`: a cut with a dominated suffix on the left and a dominated prefix on the right
  splits the problem;
* `emd_cons_common`: a point common to both bags can be removed;
* `emd_single`: one point against many;
* `emd_greedy_small(2)`, `emd_greedy_large(2)`: endpoint matches that are always optimal.
-/

namespace Verif

open EmdSpec

/-! ### Lower bounds from plans -/

theorem emd_le_plan {xs ys : List ℚ} {M : Multiset (ℚ × ℚ)}
    (h : IsPlan (xs : Multiset ℚ) (ys : Multiset ℚ) M) :
    emd xs ys ≤ planCost (xs : Multiset ℚ) (ys : Multiset ℚ) M :=
  (isEmd_emd xs ys).2 ⟨M, h, rfl⟩

theorem exists_opt_plan (xs ys : List ℚ) :
    ∃ M, IsPlan (xs : Multiset ℚ) (ys : Multiset ℚ) M ∧
      emd xs ys = planCost (xs : Multiset ℚ) (ys : Multiset ℚ) M := (isEmd_emd xs ys).1

theorem emd_append_le (A B C D : List ℚ) : emd (A ++ B) (C ++ D) ≤ emd A C + emd B D := by
  obtain ⟨M, hM, e⟩ := exists_opt_plan A C
  obtain ⟨N, hN, f⟩ := exists_opt_plan B D
  have h : IsPlan ((A ++ B : List ℚ) : Multiset ℚ) ((C ++ D : List ℚ) : Multiset ℚ) (M + N) := by
    constructor
    · rw [← Multiset.coe_add, Multiset.map_add]; exact add_le_add hM.1 hN.1
    · rw [← Multiset.coe_add, Multiset.map_add]; exact add_le_add hM.2 hN.2
  have := emd_le_plan h
  rw [e, f]
  refine this.trans (le_of_eq ?_)
  simp only [planCost, ← Multiset.coe_add, Multiset.map_add, Multiset.sum_add, Multiset.card_add]
  push_cast
  ring

/-- Pairs of a plan between sums, sorted by where their two ends come from. -/
theorem plan_split (M : Multiset (ℚ × ℚ)) : ∀ A B C D : Multiset ℚ,
    M.map Prod.fst ≤ A + B → M.map Prod.snd ≤ C + D →
    ∃ M11 M12 M21 M22 : Multiset (ℚ × ℚ), M = M11 + M12 + (M21 + M22) ∧
      (M11 + M12).map Prod.fst ≤ A ∧ (M21 + M22).map Prod.fst ≤ B ∧
      (M11 + M21).map Prod.snd ≤ C ∧ (M12 + M22).map Prod.snd ≤ D := by
  induction M using Multiset.induction_on with
  | empty =>
    intro A B C D _ _
    exact ⟨0, 0, 0, 0, by simp [Multiset.zero_le]⟩
  | cons p M ih =>
    intro A B C D h1 h2
    obtain ⟨x, y⟩ := p
    simp only [Multiset.map_cons] at h1 h2
    have hx : x ∈ A + B := Multiset.mem_of_le h1 (Multiset.mem_cons_self _ _)
    have hy : y ∈ C + D := Multiset.mem_of_le h2 (Multiset.mem_cons_self _ _)
    rcases Multiset.mem_add.1 hx with hx | hx <;> rcases Multiset.mem_add.1 hy with hy | hy
    · obtain ⟨A, rfl⟩ := Multiset.exists_cons_of_mem hx
      obtain ⟨C, rfl⟩ := Multiset.exists_cons_of_mem hy
      rw [Multiset.cons_add, Multiset.cons_le_cons_iff] at h1 h2
      obtain ⟨M11, M12, M21, M22, rfl, a, b, c, d⟩ := ih A B C D h1 h2
      refine ⟨(x, y) ::ₘ M11, M12, M21, M22, by simp only [Multiset.cons_add], ?_, b, ?_, d⟩
      · rw [Multiset.cons_add, Multiset.map_cons]; exact (Multiset.cons_le_cons_iff _).2 a
      · rw [Multiset.cons_add, Multiset.map_cons]; exact (Multiset.cons_le_cons_iff _).2 c
    · obtain ⟨A, rfl⟩ := Multiset.exists_cons_of_mem hx
      obtain ⟨D, rfl⟩ := Multiset.exists_cons_of_mem hy
      rw [Multiset.cons_add, Multiset.cons_le_cons_iff] at h1
      rw [Multiset.add_cons, Multiset.cons_le_cons_iff] at h2
      obtain ⟨M11, M12, M21, M22, rfl, a, b, c, d⟩ := ih A B C D h1 h2
      refine ⟨M11, (x, y) ::ₘ M12, M21, M22,
        by simp only [Multiset.cons_add, Multiset.add_cons], ?_, b, c, ?_⟩
      · rw [Multiset.add_cons, Multiset.map_cons]; exact (Multiset.cons_le_cons_iff _).2 a
      · rw [Multiset.cons_add, Multiset.map_cons]; exact (Multiset.cons_le_cons_iff _).2 d
    · obtain ⟨B, rfl⟩ := Multiset.exists_cons_of_mem hx
      obtain ⟨C, rfl⟩ := Multiset.exists_cons_of_mem hy
      rw [Multiset.add_cons, Multiset.cons_le_cons_iff] at h1
      rw [Multiset.cons_add, Multiset.cons_le_cons_iff] at h2
      obtain ⟨M11, M12, M21, M22, rfl, a, b, c, d⟩ := ih A B C D h1 h2
      refine ⟨M11, M12, (x, y) ::ₘ M21, M22,
        by simp only [Multiset.cons_add, Multiset.add_cons], a, ?_, ?_, d⟩
      · rw [Multiset.cons_add, Multiset.map_cons]; exact (Multiset.cons_le_cons_iff _).2 b
      · rw [Multiset.add_cons, Multiset.map_cons]; exact (Multiset.cons_le_cons_iff _).2 c
    · obtain ⟨B, rfl⟩ := Multiset.exists_cons_of_mem hx
      obtain ⟨D, rfl⟩ := Multiset.exists_cons_of_mem hy
      rw [Multiset.add_cons, Multiset.cons_le_cons_iff] at h1 h2
      obtain ⟨M11, M12, M21, M22, rfl, a, b, c, d⟩ := ih A B C D h1 h2
      refine ⟨M11, M12, M21, (x, y) ::ₘ M22,
        by simp only [Multiset.add_cons], a, ?_, c, ?_⟩
      · rw [Multiset.add_cons, Multiset.map_cons]; exact (Multiset.cons_le_cons_iff _).2 b
      · rw [Multiset.add_cons, Multiset.map_cons]; exact (Multiset.cons_le_cons_iff _).2 d

theorem sum_via (M : Multiset (ℚ × ℚ)) (c : ℚ)
    (h : ∀ p ∈ M, |p.1 - p.2| = |p.1 - c| + |c - p.2|) :
    (M.map fun p => |p.1 - p.2|).sum =
      (M.map fun p => |p.1 - c|).sum + (M.map fun p => |c - p.2|).sum := by
  rw [← Multiset.sum_map_add]
  exact congrArg _ (Multiset.map_congr rfl h)

theorem abs_via_le {x c y : ℚ} (h1 : x ≤ c) (h2 : c ≤ y) : |x - y| = |x - c| + |c - y| := by
  rw [abs_of_nonpos (by linarith), abs_of_nonpos (by linarith), abs_of_nonpos (by linarith)]; ring

theorem abs_via_ge {x c y : ℚ} (h1 : c ≤ x) (h2 : y ≤ c) : |x - y| = |x - c| + |c - y| := by
  rw [abs_of_nonneg (by linarith), abs_of_nonneg (by linarith), abs_of_nonneg (by linarith)]; ring

/-- Every plan across a cut point `c` decomposes into plans of the two sides in which pairs
crossing the cut end at copies of `c`. -/
theorem exists_cut_le {A B C D : List ℚ} {c : ℚ} (hA : ∀ a ∈ A, a ≤ c) (hC : ∀ a ∈ C, a ≤ c)
    (hB : ∀ a ∈ B, c ≤ a) (hD : ∀ a ∈ D, c ≤ a) :
    ∃ a b : ℕ, emd (List.replicate b c ++ A) (List.replicate a c ++ C) +
      emd (List.replicate a c ++ B) (List.replicate b c ++ D) ≤ emd (A ++ B) (C ++ D) := by
  obtain ⟨M, hM, e⟩ := exists_opt_plan (A ++ B) (C ++ D)
  have h1 := hM.1
  have h2 := hM.2
  rw [← Multiset.coe_add] at h1 h2
  obtain ⟨M11, M12, M21, M22, rfl, a, b, c', d⟩ := plan_split M _ _ _ _ h1 h2
  have s12 := sum_via M12 c (by
    intro p hp
    apply abs_via_le
    · apply hA
      have := Multiset.mem_of_le a (Multiset.mem_map_of_mem Prod.fst (Multiset.mem_add.2 (Or.inr hp)))
      simpa using this
    · apply hD
      have := Multiset.mem_of_le d (Multiset.mem_map_of_mem Prod.snd (Multiset.mem_add.2 (Or.inl hp)))
      simpa using this)
  have s21 := sum_via M21 c (by
    intro p hp
    apply abs_via_ge
    · apply hB
      have := Multiset.mem_of_le b (Multiset.mem_map_of_mem Prod.fst (Multiset.mem_add.2 (Or.inl hp)))
      simpa using this
    · apply hC
      have := Multiset.mem_of_le c' (Multiset.mem_map_of_mem Prod.snd (Multiset.mem_add.2 (Or.inr hp)))
      simpa using this)
  refine ⟨M12.card, M21.card, ?_⟩
  have hrep : ∀ N : Multiset (ℚ × ℚ), ((List.replicate N.card c : List ℚ) : Multiset ℚ)
      = N.map (fun _ => c) := by
    intro N; rw [Multiset.map_const', Multiset.coe_replicate]
  have p1 : IsPlan ((List.replicate M21.card c ++ A : List ℚ) : Multiset ℚ)
      ((List.replicate M12.card c ++ C : List ℚ) : Multiset ℚ)
      (M11 + M12.map (fun p => (p.1, c)) + M21.map (fun p => (c, p.2))) := by
    constructor
    · rw [← Multiset.coe_add, hrep]
      simp only [Multiset.map_add, Multiset.map_map, Function.comp_def] at a ⊢
      have := add_le_add a (le_refl (M21.map (fun _ => c)))
      simp only [add_comm, add_left_comm, add_assoc] at this ⊢
      exact this
    · rw [← Multiset.coe_add, hrep]
      simp only [Multiset.map_add, Multiset.map_map, Function.comp_def] at c' ⊢
      have := add_le_add c' (le_refl (M12.map (fun _ => c)))
      simp only [add_comm, add_left_comm, add_assoc] at this ⊢
      exact this
  have p2 : IsPlan ((List.replicate M12.card c ++ B : List ℚ) : Multiset ℚ)
      ((List.replicate M21.card c ++ D : List ℚ) : Multiset ℚ)
      (M22 + M12.map (fun p => (c, p.2)) + M21.map (fun p => (p.1, c))) := by
    constructor
    · rw [← Multiset.coe_add, hrep]
      simp only [Multiset.map_add, Multiset.map_map, Function.comp_def] at b ⊢
      have := add_le_add b (le_refl (M12.map (fun _ => c)))
      simp only [add_comm, add_left_comm, add_assoc] at this ⊢
      exact this
    · rw [← Multiset.coe_add, hrep]
      simp only [Multiset.map_add, Multiset.map_map, Function.comp_def] at d ⊢
      have := add_le_add d (le_refl (M21.map (fun _ => c)))
      simp only [add_comm, add_left_comm, add_assoc] at this ⊢
      exact this
  have q1 := emd_le_plan p1
  have q2 := emd_le_plan p2
  rw [e]
  refine (add_le_add q1 q2).trans (le_of_eq ?_)
  simp only [planCost, ← Multiset.coe_add, hrep, Multiset.map_add, Multiset.map_map,
    Function.comp_def, Multiset.sum_add, Multiset.card_add, Multiset.card_map, s12, s21]
  push_cast
  ring

/-! ### Domination as a counting condition -/

/-- The points of the first (`false`) and second (`true`) bag in a merged list. -/
def xsOf (L : List (ℚ × Bool)) : List ℚ := (L.filter (fun p => !p.2)).map Prod.fst
def ysOf (L : List (ℚ × Bool)) : List ℚ := (L.filter (fun p => p.2)).map Prod.fst

@[simp] theorem xsOf_nil : xsOf [] = [] := rfl
@[simp] theorem ysOf_nil : ysOf [] = [] := rfl
@[simp] theorem xsOf_cons_x (a : ℚ) (L : List (ℚ × Bool)) : xsOf ((a, false) :: L) = a :: xsOf L := rfl
@[simp] theorem xsOf_cons_y (a : ℚ) (L : List (ℚ × Bool)) : xsOf ((a, true) :: L) = xsOf L := rfl
@[simp] theorem ysOf_cons_x (a : ℚ) (L : List (ℚ × Bool)) : ysOf ((a, false) :: L) = ysOf L := rfl
@[simp] theorem ysOf_cons_y (a : ℚ) (L : List (ℚ × Bool)) : ysOf ((a, true) :: L) = a :: ysOf L := rfl
@[simp] theorem xsOf_append (L L' : List (ℚ × Bool)) : xsOf (L ++ L') = xsOf L ++ xsOf L' := by
  simp [xsOf]
@[simp] theorem ysOf_append (L L' : List (ℚ × Bool)) : ysOf (L ++ L') = ysOf L ++ ysOf L' := by
  simp [ysOf]
@[simp] theorem xsOf_reverse (L : List (ℚ × Bool)) : xsOf L.reverse = (xsOf L).reverse := by
  simp [xsOf, List.filter_reverse]
@[simp] theorem ysOf_reverse (L : List (ℚ × Bool)) : ysOf L.reverse = (ysOf L).reverse := by
  simp [ysOf, List.filter_reverse]

theorem mem_xsOf {L : List (ℚ × Bool)} {a : ℚ} (h : a ∈ xsOf L) : ∃ p ∈ L, p.1 = a := by
  obtain ⟨p, hp, rfl⟩ := List.mem_map.1 h
  exact ⟨p, (List.mem_filter.1 hp).1, rfl⟩

theorem mem_ysOf {L : List (ℚ × Bool)} {a : ℚ} (h : a ∈ ysOf L) : ∃ p ∈ L, p.1 = a := by
  obtain ⟨p, hp, rfl⟩ := List.mem_map.1 h
  exact ⟨p, (List.mem_filter.1 hp).1, rfl⟩

/-- Ordered by location. -/
def LocLe (p q : ℚ × Bool) : Prop := p.1 ≤ q.1

theorem xsOf_pairwise {R : ℚ → ℚ → Prop} {L : List (ℚ × Bool)}
    (h : L.Pairwise (fun p q => R p.1 q.1)) : (xsOf L).Pairwise R := by
  unfold xsOf
  rw [List.pairwise_map]
  exact h.filter _

theorem ysOf_pairwise {R : ℚ → ℚ → Prop} {L : List (ℚ × Bool)}
    (h : L.Pairwise (fun p q => R p.1 q.1)) : (ysOf L).Pairwise R := by
  unfold ysOf
  rw [List.pairwise_map]
  exact h.filter _

/-- In every prefix there are at least as many `x` as `y`. -/
def PreOk (L : List (ℚ × Bool)) : Prop := ∀ t, t <+: L → (ysOf t).length ≤ (xsOf t).length

/-- In every suffix there are at least as many `x` as `y`. -/
def SufOk (L : List (ℚ × Bool)) : Prop := ∀ t, t <:+ L → (ysOf t).length ≤ (xsOf t).length

theorem preOk_reverse {L : List (ℚ × Bool)} : PreOk L.reverse ↔ SufOk L := by
  constructor
  · intro h t ht
    have := h t.reverse (List.reverse_prefix.2 ht)
    simpa using this
  · intro h t ht
    have := h t.reverse (by rw [← List.reverse_prefix, List.reverse_reverse]; exact ht)
    simpa using this

theorem sufOk_reverse {L : List (ℚ × Bool)} : SufOk L.reverse ↔ PreOk L := by
  rw [← preOk_reverse, List.reverse_reverse]

theorem dom_of_counts (D : List (ℚ × Bool)) : ∀ q : List ℚ,
    D.Pairwise (fun p q => p.1 ≥ q.1) → (∀ a ∈ q, ∀ p ∈ D, p.1 ≤ a) →
    (∀ t, t <+: D → (ysOf t).length ≤ q.length + (xsOf t).length) →
    Dom (q ++ xsOf D) (ysOf D) := by
  induction D with
  | nil => intro q _ _ _; exact Dom.nil _
  | cons p D ih =>
    intro q hD hq hc
    obtain ⟨a, b⟩ := p
    rw [List.pairwise_cons] at hD
    cases b with
    | false =>
      have := ih (q ++ [a]) hD.2 (by
        intro c hcq p hp
        rcases List.mem_append.1 hcq with h | h
        · exact hq c h p (List.mem_cons_of_mem _ hp)
        · rw [List.mem_singleton.1 h]; exact hD.1 p hp) (by
        intro t ht
        have := hc ((a, false) :: t) (by rw [List.cons_prefix_cons]; exact ⟨rfl, ht⟩)
        simp at this ⊢
        omega)
      simpa using this
    | true =>
      cases q with
      | nil =>
        have := hc [(a, true)] (by rw [List.cons_prefix_cons]; exact ⟨rfl, List.nil_prefix⟩)
        simp at this
      | cons q0 q =>
        simp only [ysOf_cons_y, xsOf_cons_y, List.cons_append]
        refine Dom.cons (hq q0 List.mem_cons_self (a, true) List.mem_cons_self) ?_
        apply ih q hD.2
        · intro c hcq p hp
          exact hq c (List.mem_cons_of_mem _ hcq) p (List.mem_cons_of_mem _ hp)
        · intro t ht
          have := hc ((a, true) :: t) (by rw [List.cons_prefix_cons]; exact ⟨rfl, ht⟩)
          simp at this ⊢
          omega

theorem dom_of_sufOk {P : List (ℚ × Bool)} (hP : P.Pairwise LocLe) (h : SufOk P) :
    Dom (xsOf P).reverse (ysOf P).reverse := by
  have := dom_of_counts P.reverse [] (by rw [List.pairwise_reverse]; exact hP) (by simp)
    (fun t ht => by simpa using preOk_reverse.2 h t ht)
  simpa using this

/-- Adding far points on the right of a list all of whose suffixes are dominated. -/
theorem emd_far_right {P : List (ℚ × Bool)} {c : ℚ} (a : ℕ) (hP : P.Pairwise LocLe) (h : SufOk P)
    (hc : ∀ p ∈ P, p.1 ≤ c) :
    emd (xsOf P) (ysOf P) + a ≤ emd (List.replicate a c ++ xsOf P) (ysOf P) := by
  have h1 : (xsOf P).reverse.Pairwise (· ≥ ·) := by
    rw [List.pairwise_reverse]; exact xsOf_pairwise hP
  have h2 : (ysOf P).reverse.Pairwise (· ≥ ·) := by
    rw [List.pairwise_reverse]; exact ysOf_pairwise hP
  have := emd_add_far_replicate (c := c) a h1 h2 (dom_of_sufOk hP h) (by
    intro x hx
    obtain ⟨p, hp, rfl⟩ := mem_xsOf (List.mem_reverse.1 hx)
    exact hc p hp)
  rw [emd_perm (List.reverse_perm _) (List.reverse_perm _),
    emd_perm ((List.Perm.refl _).append (List.reverse_perm _)) (List.reverse_perm _)] at this
  exact this

/-- Mirror image of a merged list. -/
def mirror (L : List (ℚ × Bool)) : List (ℚ × Bool) := (L.map (fun p => (-p.1, p.2))).reverse

theorem xsOf_mirror (L : List (ℚ × Bool)) : xsOf (mirror L) = ((xsOf L).map (fun a => -a)).reverse := by
  unfold mirror
  rw [xsOf_reverse]
  congr 1
  induction L with
  | nil => rfl
  | cons p L ih => obtain ⟨a, b⟩ := p; cases b <;> simp [ih]

theorem ysOf_mirror (L : List (ℚ × Bool)) : ysOf (mirror L) = ((ysOf L).map (fun a => -a)).reverse := by
  unfold mirror
  rw [ysOf_reverse]
  congr 1
  induction L with
  | nil => rfl
  | cons p L ih => obtain ⟨a, b⟩ := p; cases b <;> simp [ih]

theorem mirror_pairwise {L : List (ℚ × Bool)} (h : L.Pairwise LocLe) : (mirror L).Pairwise LocLe := by
  unfold mirror
  rw [List.pairwise_reverse, List.pairwise_map]
  exact h.imp (fun h => neg_le_neg h)

theorem sufOk_mirror {L : List (ℚ × Bool)} (h : PreOk L) : SufOk (mirror L) := by
  unfold mirror
  rw [sufOk_reverse]
  intro t ht
  obtain ⟨t', ht', rfl⟩ := List.prefix_map_iff.1 ht
  have hx : ∀ s : List (ℚ × Bool), (xsOf (s.map (fun p => (-p.1, p.2)))).length = (xsOf s).length := by
    intro s
    have := congrArg List.length (xsOf_mirror s)
    simpa [mirror] using this
  have hy : ∀ s : List (ℚ × Bool), (ysOf (s.map (fun p => (-p.1, p.2)))).length = (ysOf s).length := by
    intro s
    have := congrArg List.length (ysOf_mirror s)
    simpa [mirror] using this
  rw [hx, hy]
  exact h t' ht'

theorem emd_mirror (L : List (ℚ × Bool)) :
    emd (xsOf (mirror L)) (ysOf (mirror L)) = emd (xsOf L) (ysOf L) := by
  rw [xsOf_mirror, ysOf_mirror, emd_perm (List.reverse_perm _) (List.reverse_perm _), emd_neg]

theorem emd_far_left {S : List (ℚ × Bool)} {c : ℚ} (a : ℕ) (hS : S.Pairwise LocLe) (h : PreOk S)
    (hc : ∀ p ∈ S, c ≤ p.1) :
    emd (xsOf S) (ysOf S) + a ≤ emd (List.replicate a c ++ xsOf S) (ysOf S) := by
  have := emd_far_right (c := -c) a (mirror_pairwise hS) (sufOk_mirror h) (by
    intro p hp
    unfold mirror at hp
    rw [List.mem_reverse, List.mem_map] at hp
    obtain ⟨q, hq, rfl⟩ := hp
    exact neg_le_neg (hc q hq))
  rw [emd_mirror, xsOf_mirror, ysOf_mirror,
    emd_perm ((List.Perm.refl _).append (List.reverse_perm _)) (List.reverse_perm _)] at this
  have e : List.replicate a (-c) = (List.replicate a c).map (fun x => -x) := by simp
  rw [e, ← List.map_append, emd_neg] at this
  exact this

/-- A cut whose left part has dominated suffixes and whose right part has dominated prefixes
separates the problem. -/
theorem emd_split {P S : List (ℚ × Bool)} (h : (P ++ S).Pairwise LocLe) (hP : SufOk P)
    (hS : PreOk S) :
    emd (xsOf (P ++ S)) (ysOf (P ++ S)) = emd (xsOf P) (ysOf P) + emd (xsOf S) (ysOf S) := by
  rw [xsOf_append, ysOf_append]
  apply le_antisymm (emd_append_le _ _ _ _)
  rw [List.pairwise_append] at h
  obtain ⟨hp, hs, hps⟩ := h
  cases S with
  | nil => simp [emd_nil_left]
  | cons s S =>
    have hcP : ∀ p ∈ P, p.1 ≤ s.1 := fun p hp => hps p hp s List.mem_cons_self
    have hcS : ∀ p ∈ s :: S, s.1 ≤ p.1 := by
      intro p hp
      rcases List.mem_cons.1 hp with rfl | hp
      · exact le_refl _
      · exact (List.pairwise_cons.1 hs).1 p hp
    obtain ⟨a, b, hab⟩ := exists_cut_le (A := xsOf P) (B := xsOf (s :: S)) (C := ysOf P)
      (D := ysOf (s :: S)) (c := s.1)
      (fun x hx => by obtain ⟨p, hp, rfl⟩ := mem_xsOf hx; exact hcP p hp)
      (fun x hx => by obtain ⟨p, hp, rfl⟩ := mem_ysOf hx; exact hcP p hp)
      (fun x hx => by obtain ⟨p, hp, rfl⟩ := mem_xsOf hx; exact hcS p hp)
      (fun x hx => by obtain ⟨p, hp, rfl⟩ := mem_ysOf hx; exact hcS p hp)
    have h1 := emd_far_right (c := s.1) b hp hP hcP
    have h2 := emd_far_left (c := s.1) a hs hS hcS
    have h3 := le_emd_replicate_right s.1 a (List.replicate b s.1 ++ xsOf P) (ysOf P)
    have h4 := le_emd_replicate_right s.1 b (List.replicate a s.1 ++ xsOf (s :: S)) (ysOf (s :: S))
    linarith

/-! ### Common points -/

theorem emd_cons_common (a : ℚ) (xs ys : List ℚ) : emd (a :: xs) (a :: ys) = emd xs ys := by
  apply le_antisymm
  · have := emd_le_match a a xs ys
    simpa using this
  · obtain ⟨M, hM, e⟩ := exists_opt_plan (a :: xs) (a :: ys)
    rw [e]
    simp only [← Multiset.cons_coe] at hM ⊢
    have key : ∀ N : Multiset (ℚ × ℚ), IsPlan (xs : Multiset ℚ) (ys : Multiset ℚ) N →
        planCost (xs : Multiset ℚ) (ys : Multiset ℚ) N ≤
          planCost (a ::ₘ (xs : Multiset ℚ)) (a ::ₘ (ys : Multiset ℚ)) M →
        emd xs ys ≤ planCost (a ::ₘ (xs : Multiset ℚ)) (a ::ₘ (ys : Multiset ℚ)) M :=
      fun N hN h => (emd_le_plan hN).trans h
    rcases le_cons_cases hM.1 with hu | hu <;> rcases le_cons_cases hM.2 with hv | hv
    · apply key M ⟨hu, hv⟩
      rw [planCost_skip_left, planCost_skip_right]
      linarith
    · obtain ⟨b, M', rfl⟩ := exists_pair_of_mem_snd hv
      apply key M' ⟨?_, ?_⟩
      · have := abs_nonneg (b - a)
        simp only [planCost, Multiset.map_cons, Multiset.sum_cons, Multiset.card_cons]
        push_cast
        linarith
      · refine le_trans ?_ hu
        rw [Multiset.map_cons]; exact Multiset.le_cons_self _ _
      · have := hM.2
        rw [Multiset.map_cons] at this
        exact (Multiset.cons_le_cons_iff _).1 this
    · obtain ⟨b, M', rfl⟩ := exists_pair_of_mem_fst hu
      apply key M' ⟨?_, ?_⟩
      · have := abs_nonneg (a - b)
        simp only [planCost, Multiset.map_cons, Multiset.sum_cons, Multiset.card_cons]
        push_cast
        linarith
      · have := hM.1
        rw [Multiset.map_cons] at this
        exact (Multiset.cons_le_cons_iff _).1 this
      · refine le_trans ?_ hv
        rw [Multiset.map_cons]; exact Multiset.le_cons_self _ _
    · obtain ⟨b, M', rfl⟩ := exists_pair_of_mem_fst hu
      by_cases hb : b = a
      · subst hb
        apply key M' ⟨?_, ?_⟩
        · rw [planCost_cons]; simp
        · have := hM.1
          rw [Multiset.map_cons] at this
          exact (Multiset.cons_le_cons_iff _).1 this
        · have := hM.2
          rw [Multiset.map_cons] at this
          exact (Multiset.cons_le_cons_iff _).1 this
      · have hv' : a ∈ M'.map Prod.snd := by
          simp only [Multiset.map_cons, Multiset.mem_cons] at hv
          rcases hv with h | h
          · exact absurd h.symm hb
          · exact h
        obtain ⟨x, M'', rfl⟩ := exists_pair_of_mem_snd hv'
        apply key ((x, b) ::ₘ M'') ⟨?_, ?_⟩
        · have := abs_sub_le x a b
          simp only [planCost, Multiset.map_cons, Multiset.sum_cons, Multiset.card_cons]
          push_cast
          linarith
        · have := hM.1
          simp only [Multiset.map_cons] at this ⊢
          exact (Multiset.cons_le_cons_iff _).1 this
        · have := hM.2
          simp only [Multiset.map_cons] at this ⊢
          rw [Multiset.cons_swap] at this
          exact (Multiset.cons_le_cons_iff _).1 this

/-! ### Distances up to two -/

theorem exists_rest {X S : Multiset ℚ} (h : S ≤ X) (hc : S.card < X.card) :
    ∃ x ∈ X, x ::ₘ S ≤ X := by
  have hne : X - S ≠ 0 := by
    intro h0
    have := congrArg Multiset.card h0
    rw [Multiset.card_sub h, Multiset.card_zero] at this
    omega
  obtain ⟨x, hx⟩ := Multiset.exists_mem_of_ne_zero hne
  have hle : x ::ₘ S ≤ X := by
    have h1 : {x} ≤ X - S := Multiset.singleton_le.2 hx
    have h2 := add_le_add h1 (le_refl S)
    rw [Multiset.sub_add_cancel h, Multiset.singleton_add] at h2
    exact h2
  exact ⟨x, Multiset.mem_of_le hle (Multiset.mem_cons_self _ _), hle⟩

/-- A point of each bag unmatched costs two, so matching them is no worse. -/
theorem exists_full_plan {xs ys : List ℚ} (hs : Spread2 xs ys) (hl : ys.length ≤ xs.length) :
    ∃ M, IsPlan (xs : Multiset ℚ) (ys : Multiset ℚ) M ∧ M.card = ys.length ∧
      emd xs ys = (M.map fun p => |p.1 - p.2|).sum + ((xs.length : ℚ) - ys.length) := by
  have key : ∀ (k : ℕ) (M : Multiset (ℚ × ℚ)), IsPlan (xs : Multiset ℚ) (ys : Multiset ℚ) M →
      ys.length - M.card = k →
      ∃ M', IsPlan (xs : Multiset ℚ) (ys : Multiset ℚ) M' ∧ M'.card = ys.length ∧
        planCost (xs : Multiset ℚ) (ys : Multiset ℚ) M' ≤
          planCost (xs : Multiset ℚ) (ys : Multiset ℚ) M := by
    intro k
    induction k with
    | zero =>
      intro M hM hk
      have := plan_card_le_right hM
      simp only [Multiset.coe_card] at this
      exact ⟨M, hM, by omega, le_refl _⟩
    | succ k ih =>
      intro M hM hk
      obtain ⟨x, hx, hx'⟩ := exists_rest hM.1 (by simp; omega)
      obtain ⟨y, hy, hy'⟩ := exists_rest hM.2 (by simp; omega)
      have hp : IsPlan (xs : Multiset ℚ) (ys : Multiset ℚ) ((x, y) ::ₘ M) := by
        constructor
        · rw [Multiset.map_cons]; exact hx'
        · rw [Multiset.map_cons]; exact hy'
      obtain ⟨M', h1, h2, h3⟩ := ih _ hp (by rw [Multiset.card_cons]; omega)
      refine ⟨M', h1, h2, h3.trans ?_⟩
      have hd := hs x (by simpa using hx) y (by simpa using hy)
      simp only [planCost, Multiset.map_cons, Multiset.sum_cons, Multiset.card_cons]
      push_cast
      linarith
  obtain ⟨M, hM, e⟩ := exists_opt_plan xs ys
  obtain ⟨M', h1, h2, h3⟩ := key _ M hM rfl
  refine ⟨M', h1, h2, ?_⟩
  have h4 := emd_le_plan h1
  have h5 : planCost (xs : Multiset ℚ) (ys : Multiset ℚ) M' =
      (M'.map fun p => |p.1 - p.2|).sum + ((xs.length : ℚ) - ys.length) := by
    simp only [planCost, Multiset.coe_card, h2]
    ring
  linarith

/-- Half of every point. -/
def halves (xs : List ℚ) : List ℚ := xs.map (fun a => a / 2)

theorem abs_halves (x y : ℚ) : |x / 2 - y / 2| = |x - y| / 2 := by
  rcases le_total 0 (x - y) with h | h
  · rw [abs_of_nonneg h, abs_of_nonneg (by linarith)]; ring
  · rw [abs_of_nonpos h, abs_of_nonpos (by linarith)]; ring

theorem abs_doubles (x y : ℚ) : |2 * x - 2 * y| = 2 * |x - y| := by
  have := abs_halves (2 * x) (2 * y)
  rw [mul_div_cancel_left₀ _ two_ne_zero, mul_div_cancel_left₀ _ two_ne_zero] at this
  linarith

theorem sum_map_mul (c : ℚ) (f : ℚ × ℚ → ℚ) (M : Multiset (ℚ × ℚ)) :
    (M.map fun p => c * f p).sum = c * (M.map f).sum := by
  induction M using Multiset.induction with
  | empty => simp
  | cons a M ih => simp only [Multiset.map_cons, Multiset.sum_cons, ih]; ring

theorem halves_spread {xs ys : List ℚ} (hs : Spread2 xs ys) : Spread1 (halves xs) (halves ys) := by
  intro a ha b hb
  obtain ⟨x, hx, rfl⟩ := List.mem_map.1 ha
  obtain ⟨y, hy, rfl⟩ := List.mem_map.1 hb
  have := hs x hx y hy
  rw [abs_halves]
  linarith

theorem EmdSpec.Spread1.two {xs ys : List ℚ} (h : Spread1 xs ys) : Spread2 xs ys :=
  fun a ha b hb => (h a ha b hb).trans (by norm_num)

theorem emd_halves {xs ys : List ℚ} (hs : Spread2 xs ys) (hl : ys.length ≤ xs.length) :
    emd xs ys = 2 * emd (halves xs) (halves ys) - ((xs.length : ℚ) - ys.length) := by
  have hh := (halves_spread hs).two
  have lx : (halves xs).length = xs.length := by simp [halves]
  have ly : (halves ys).length = ys.length := by simp [halves]
  obtain ⟨M, hM, hc, e⟩ := exists_full_plan hs hl
  obtain ⟨N, hN, hc', e'⟩ := exists_full_plan hh (by rw [lx, ly]; exact hl)
  rw [lx, ly] at e'
  rw [ly] at hc'
  apply le_antisymm
  · have hp : IsPlan (xs : Multiset ℚ) (ys : Multiset ℚ) (N.map (fun p => (2 * p.1, 2 * p.2))) := by
      have d : ∀ zs : List ℚ, (zs : Multiset ℚ) = ((halves zs : List ℚ) : Multiset ℚ).map (fun a => 2 * a) := by
        intro zs
        rw [Multiset.map_coe, halves, List.map_map]
        have : ((fun a : ℚ => 2 * a) ∘ fun a => a / 2) = id := by funext a; simp; ring
        rw [this, List.map_id]
      constructor
      · have := Multiset.map_le_map (f := fun a : ℚ => 2 * a) hN.1
        rw [d xs]
        simpa [Multiset.map_map, Function.comp_def] using this
      · have := Multiset.map_le_map (f := fun a : ℚ => 2 * a) hN.2
        rw [d ys]
        simpa [Multiset.map_map, Function.comp_def] using this
    have h1 := emd_le_plan hp
    have h2 : ((N.map (fun p : ℚ × ℚ => (2 * p.1, 2 * p.2))).map fun p => |p.1 - p.2|).sum =
        2 * (N.map fun p => |p.1 - p.2|).sum := by
      rw [Multiset.map_map, ← sum_map_mul]
      congr 1
      apply Multiset.map_congr rfl
      intro p _
      simp only [Function.comp_apply]
      exact abs_doubles _ _
    have h3 : planCost (xs : Multiset ℚ) (ys : Multiset ℚ) (N.map (fun p => (2 * p.1, 2 * p.2))) =
        2 * (N.map fun p => |p.1 - p.2|).sum + ((xs.length : ℚ) - ys.length) := by
      unfold planCost
      rw [h2, Multiset.card_map, hc']
      simp only [Multiset.coe_card]
      ring
    linarith
  · have hp : IsPlan ((halves xs : List ℚ) : Multiset ℚ) ((halves ys : List ℚ) : Multiset ℚ)
        (M.map (fun p => (p.1 / 2, p.2 / 2))) := by
      constructor
      · have := Multiset.map_le_map (f := fun a : ℚ => a / 2) hM.1
        simpa [halves, Multiset.map_map, Function.comp_def] using this
      · have := Multiset.map_le_map (f := fun a : ℚ => a / 2) hM.2
        simpa [halves, Multiset.map_map, Function.comp_def] using this
    have h1 := emd_le_plan hp
    have h2 : ((M.map (fun p : ℚ × ℚ => (p.1 / 2, p.2 / 2))).map fun p => |p.1 - p.2|).sum =
        (M.map fun p => |p.1 - p.2|).sum / 2 := by
      rw [Multiset.map_map, div_eq_inv_mul, ← sum_map_mul]
      congr 1
      apply Multiset.map_congr rfl
      intro p _
      simp only [Function.comp_apply]
      rw [abs_halves]; ring
    have h3 : planCost ((halves xs : List ℚ) : Multiset ℚ) ((halves ys : List ℚ) : Multiset ℚ)
        (M.map (fun p => (p.1 / 2, p.2 / 2))) =
        (M.map fun p => |p.1 - p.2|).sum / 2 + ((xs.length : ℚ) - ys.length) := by
      unfold planCost
      rw [h2, Multiset.card_map, hc]
      simp only [Multiset.coe_card, lx, ly]
      ring
    linarith

theorem halves_pairwise {xs : List ℚ} (h : xs.Pairwise (· ≤ ·)) : (halves xs).Pairwise (· ≤ ·) := by
  unfold halves
  rw [List.pairwise_map]
  exact h.imp (fun h => by linarith)

theorem halves_cons (x : ℚ) (xs : List ℚ) : halves (x :: xs) = x / 2 :: halves xs := rfl

/-! ### One point against many -/

theorem emd_single_le {x y : ℚ} {xs : List ℚ} (h : x ∈ xs) :
    emd xs [y] ≤ |x - y| + (xs.length - 1) := by
  have hp := List.perm_cons_erase h
  have h1 := emd_le_match x y (xs.erase x) []
  rw [emd_perm hp (List.Perm.refl [y])]
  rw [emd_nil_right] at h1
  have : xs.length = (xs.erase x).length + 1 := by simpa using hp.length_eq
  rw [this]
  push_cast
  linarith

theorem exists_emd_single {y : ℚ} {xs : List ℚ} (hne : xs ≠ []) (hs : Spread2 xs [y]) :
    ∃ x ∈ xs, emd xs [y] = |x - y| + (xs.length - 1) := by
  obtain ⟨M, hM, hc, e⟩ := exists_full_plan hs (by
    have := List.length_pos_iff.2 hne
    simp only [List.length_singleton]; omega)
  obtain ⟨p, rfl⟩ := Multiset.card_eq_one.1 hc
  have h1 := hM.1
  have h2 := hM.2
  simp only [Multiset.map_singleton, Multiset.singleton_le, Multiset.mem_coe,
    List.mem_singleton] at h1 h2
  refine ⟨p.1, h1, ?_⟩
  rw [e]
  simp [h2]

/-! ### Greedy matches at the ends -/

theorem emd_greedy_small1 {x y : ℚ} {xs ys : List ℚ} (hx : (x :: xs).Pairwise (· ≤ ·))
    (hy : (y :: ys).Pairwise (· ≤ ·)) (hs : Spread1 (x :: xs) (y :: ys))
    (hl : ys.length ≤ xs.length) (hyx : y ≤ x) :
    emd (x :: xs) (y :: ys) = |x - y| + emd xs ys := by
  induction xs generalizing x with
  | nil => exact emd_full_eq hx hy hs (by simpa using hl)
  | cons x2 xs ih =>
    rcases Nat.lt_or_ge ys.length (x2 :: xs).length with h | h
    · have h1 := emd_full_lt hx hy hs h
      have hx' := List.pairwise_cons.1 hx
      have hxx := hx'.1 x2 List.mem_cons_self
      have h2 := ih hx'.2 hs.tailLeft (by simp at h; omega) (hyx.trans hxx)
      have h3 := emd_le_left x2 xs ys
      rw [h1]
      apply min_eq_left
      rw [h2, abs_of_nonneg (by linarith), abs_of_nonneg (by linarith)]
      linarith
    · exact emd_full_eq hx hy hs (by omega)

theorem emd_greedy_small21 {x x2 y : ℚ} {xs ys : List ℚ} (hx : (x :: x2 :: xs).Pairwise (· ≤ ·))
    (hy : (y :: ys).Pairwise (· ≤ ·)) (hs : Spread1 (x :: x2 :: xs) (y :: ys))
    (hl : ys.length ≤ (x2 :: xs).length) (h1 : x < y) (h2 : y < x2) (h3 : y - x ≤ x2 - y) :
    emd (x :: x2 :: xs) (y :: ys) = |x - y| + emd (x2 :: xs) ys := by
  rcases Nat.lt_or_ge ys.length (x2 :: xs).length with h | h
  · have e := emd_full_lt hx hy hs h
    have hx' := List.pairwise_cons.1 hx
    have e2 := emd_greedy_small1 hx'.2 hy hs.tailLeft (by simp at h; omega) h2.le
    have e3 := emd_le_left x2 xs ys
    rw [e]
    apply min_eq_left
    rw [e2, abs_of_nonpos (by linarith), abs_of_nonneg (by linarith)]
    linarith
  · exact emd_full_eq hx hy hs (by omega)

/-- Equal sizes: pair the sorted lists. -/
theorem emd_zip {xs ys : List ℚ} (hx : xs.Pairwise (· ≤ ·)) (hy : ys.Pairwise (· ≤ ·))
    (hs : Spread2 xs ys) (hl : xs.length = ys.length) :
    emd xs ys = (List.zipWith absd xs ys).sum := by
  rw [emd_halves hs hl.ge, emd_zip1 (halves_pairwise hx) (halves_pairwise hy) (halves_spread hs)
    (by simp [halves, hl]), hl, sub_self, sub_zero]
  unfold halves
  clear hx hy hs hl
  induction xs generalizing ys with
  | nil => simp
  | cons x xs ih =>
    cases ys with
    | nil => simp
    | cons y ys =>
      have := ih (ys := ys)
      have e : absd (x / 2) (y / 2) = absd x y / 2 := abs_halves x y
      simp only [List.map_cons, List.zipWith_cons_cons, List.sum_cons, e]
      linarith

theorem emd_greedy_small {x y : ℚ} {xs ys : List ℚ} (hx : (x :: xs).Pairwise (· ≤ ·))
    (hy : (y :: ys).Pairwise (· ≤ ·)) (hs : Spread2 (x :: xs) (y :: ys))
    (hl : ys.length ≤ xs.length) (hyx : y ≤ x) :
    emd (x :: xs) (y :: ys) = |x - y| + emd xs ys := by
  have h := emd_greedy_small1 (x := x / 2) (y := y / 2) (xs := halves xs) (ys := halves ys)
    (halves_pairwise hx) (halves_pairwise hy) (halves_spread hs) (by simpa [halves] using hl)
    (by linarith)
  rw [emd_halves hs (by simpa using hl), halves_cons, halves_cons, h, emd_halves hs.tail hl,
    abs_halves]
  simp only [List.length_cons]
  push_cast
  ring

theorem emd_greedy_small2 {x x2 y : ℚ} {xs ys : List ℚ} (hx : (x :: x2 :: xs).Pairwise (· ≤ ·))
    (hy : (y :: ys).Pairwise (· ≤ ·)) (hs : Spread2 (x :: x2 :: xs) (y :: ys))
    (hl : ys.length ≤ (x2 :: xs).length) (h1 : x < y) (h2 : y < x2) (h3 : y - x ≤ x2 - y) :
    emd (x :: x2 :: xs) (y :: ys) = |x - y| + emd (x2 :: xs) ys := by
  have h := emd_greedy_small21 (x := x / 2) (x2 := x2 / 2) (y := y / 2) (xs := halves xs)
    (ys := halves ys) (halves_pairwise hx) (halves_pairwise hy) (halves_spread hs)
    (by simpa [halves] using hl) (by linarith) (by linarith) (by linarith)
  rw [emd_halves hs (by simpa using hl), halves_cons, halves_cons, halves_cons, h,
    emd_halves hs.tail hl, abs_halves, halves_cons]
  simp only [List.length_cons]
  push_cast
  ring

theorem EmdSpec.Spread2.neg {xs ys : List ℚ} (h : Spread2 xs ys) :
    Spread2 (xs.map (fun a => -a)) (ys.map (fun a => -a)) := by
  intro a ha b hb
  obtain ⟨x, hx, rfl⟩ := List.mem_map.1 ha
  obtain ⟨y, hy, rfl⟩ := List.mem_map.1 hb
  have := absd_neg x y
  unfold absd at this
  rw [this]; exact h x hx y hy

theorem emd_greedy_large {x y : ℚ} {xs ys : List ℚ} (hx : (x :: xs).Pairwise (· ≥ ·))
    (hy : (y :: ys).Pairwise (· ≥ ·)) (hs : Spread2 (x :: xs) (y :: ys))
    (hl : ys.length ≤ xs.length) (hyx : x ≤ y) :
    emd (x :: xs) (y :: ys) = |x - y| + emd xs ys := by
  have := emd_greedy_small (x := -x) (y := -y) (pairwise_neg' hx) (pairwise_neg' hy) hs.neg
    (by simpa using hl) (neg_le_neg hyx)
  have e := absd_neg x y
  unfold absd at e
  rw [emd_neg, e, ← List.map_cons (f := fun a : ℚ => -a), ← List.map_cons (f := fun a : ℚ => -a),
    emd_neg] at this
  exact this

theorem emd_greedy_large2 {x x2 y : ℚ} {xs ys : List ℚ} (hx : (x :: x2 :: xs).Pairwise (· ≥ ·))
    (hy : (y :: ys).Pairwise (· ≥ ·)) (hs : Spread2 (x :: x2 :: xs) (y :: ys))
    (hl : ys.length ≤ (x2 :: xs).length) (h1 : y < x) (h2 : x2 < y) (h3 : x - y ≤ y - x2) :
    emd (x :: x2 :: xs) (y :: ys) = |x - y| + emd (x2 :: xs) ys := by
  have := emd_greedy_small2 (x := -x) (x2 := -x2) (y := -y) (pairwise_neg' hx) (pairwise_neg' hy)
    hs.neg (by simpa using hl) (neg_lt_neg h1) (neg_lt_neg h2) (by linarith)
  have e := absd_neg x y
  unfold absd at e
  rw [e, ← List.map_cons (f := fun a : ℚ => -a), ← List.map_cons (f := fun a : ℚ => -a),
    ← List.map_cons (f := fun a : ℚ => -a), emd_neg, emd_neg] at this
  exact this

end Verif
