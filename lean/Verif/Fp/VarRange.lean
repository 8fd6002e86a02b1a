import Verif.Fp.VarLemmas

/-!
# Bounds that hold exactly in rounded arithmetic
-/

namespace Verif
namespace Fp

open EmdSpec

variable {R : Rounding}

/-! ## Greedy matches -/

/-- The greedy loops remove as many points of one list as of the other and add at most 1 for every
pair. -/
structure GreedyBnd (a b : ℕ) (xs ys : List ℚ) (r : ℚ × List ℚ × List ℚ) : Prop where
  bnd : ∃ g : ℕ, r.2.1.length + g = xs.length ∧ r.2.2.length + g = ys.length ∧
    (b : ℚ) ≤ r.1 ∧ r.1 ≤ ((a + g : ℕ) : ℚ)
  subx : r.2.1 ⊆ xs
  suby : r.2.2 ⊆ ys

theorem greedyBnd_refl {a b : ℕ} {d : ℚ} {xs ys : List ℚ} (h1 : (b : ℚ) ≤ d) (h2 : d ≤ (a : ℚ)) :
    GreedyBnd a b xs ys (d, xs, ys) :=
  ⟨⟨0, rfl, rfl, h1, by simpa using h2⟩, fun _ h => h, fun _ h => h⟩

theorem GreedyBnd.step {a b : ℕ} {x y : ℚ} {xs ys : List ℚ} {r : ℚ × List ℚ × List ℚ}
    (h : GreedyBnd (a + 1) b xs ys r) : GreedyBnd a b (x :: xs) (y :: ys) r := by
  obtain ⟨⟨g, h1, h2, h3, h4⟩, h5, h6⟩ := h
  refine ⟨⟨g + 1, by simp; omega, by simp; omega, h3, ?_⟩, fun _ h => List.mem_cons_of_mem _ (h5 h),
    fun _ h => List.mem_cons_of_mem _ (h6 h)⟩
  rwa [show a + (g + 1) = a + 1 + g by omega]

theorem dist_le_one {x y : ℚ} (h : |x - y| ≤ 1) : |R.fl (x - y)| ≤ 1 := by
  rw [abs_fl]
  simpa using fl_le_nat (R := R) (n := 1) (by norm_num) (by simpa using h)

theorem step_bnd {a b : ℕ} {d v : ℚ} (h1 : (b : ℚ) ≤ d) (h2 : d ≤ (a : ℚ)) (h3 : 0 ≤ v)
    (h4 : v ≤ 1) (hb : b ≤ a) (ha : a + 1 ≤ 2 ^ 53) :
    (b : ℚ) ≤ R.fl (d + v) ∧ R.fl (d + v) ≤ ((a + 1 : ℕ) : ℚ) :=
  ⟨nat_le_fl (by omega) (by linarith), fl_le_nat ha (by push_cast; linarith)⟩

theorem spread_cons {x y : ℚ} {xs ys : List ℚ} (h : Spread1 (x :: xs) (y :: ys)) :
    |x - y| ≤ 1 ∧ Spread1 xs ys :=
  ⟨h x (by simp) y (by simp), fun a ha b hb =>
    h a (List.mem_cons_of_mem _ ha) b (List.mem_cons_of_mem _ hb)⟩

theorem greedySmallF_bnd {xs ys : List ℚ} {a b : ℕ} {d : ℚ} (h1 : (b : ℚ) ≤ d) (h2 : d ≤ (a : ℚ))
    (hb : b ≤ a) (ha : a + xs.length ≤ 2 ^ 53) (hs : Spread1 xs ys) :
    GreedyBnd a b xs ys (greedySmallF R d xs ys) := by
  induction xs generalizing d ys a with
  | nil => simpa [greedySmallF] using greedyBnd_refl h1 h2
  | cons x xs ih =>
    cases ys with
    | nil => simpa [greedySmallF] using greedyBnd_refl h1 h2
    | cons y ys =>
      obtain ⟨hd, hs'⟩ := spread_cons hs
      simp only [List.length_cons] at ha
      have next : GreedyBnd a b (x :: xs) (y :: ys) (greedySmallF R (R.fl (d + |R.fl (x - y)|)) xs ys) := by
        obtain ⟨t1, t2⟩ := step_bnd (R := R) h1 h2 (abs_nonneg _) (dist_le_one (R := R) hd) hb (by omega)
        exact (ih t1 t2 (by omega) (by omega) hs').step
      rw [greedySmallF.eq_def]
      simp only
      split_ifs with c1
      · exact next
      · cases xs with
        | nil => exact greedyBnd_refl h1 h2
        | cons x2 xs =>
          simp only
          split_ifs with c2
          · rw [abs_fl_sub_comm]; exact next
          · exact greedyBnd_refl h1 h2

theorem greedyLargeF_bnd {xs ys : List ℚ} {a b : ℕ} {d : ℚ} (h1 : (b : ℚ) ≤ d) (h2 : d ≤ (a : ℚ))
    (hb : b ≤ a) (ha : a + xs.length ≤ 2 ^ 53) (hs : Spread1 xs ys) :
    GreedyBnd a b xs ys (greedyLargeF R d xs ys) := by
  induction xs generalizing d ys a with
  | nil => simpa [greedyLargeF] using greedyBnd_refl h1 h2
  | cons x xs ih =>
    cases ys with
    | nil => simpa [greedyLargeF] using greedyBnd_refl h1 h2
    | cons y ys =>
      obtain ⟨hd, hs'⟩ := spread_cons hs
      simp only [List.length_cons] at ha
      have next : GreedyBnd a b (x :: xs) (y :: ys) (greedyLargeF R (R.fl (d + |R.fl (x - y)|)) xs ys) := by
        obtain ⟨t1, t2⟩ := step_bnd (R := R) h1 h2 (abs_nonneg _) (dist_le_one (R := R) hd) hb (by omega)
        exact (ih t1 t2 (by omega) (by omega) hs').step
      rw [abs_fl_sub_comm] at next
      rw [greedyLargeF.eq_def]
      simp only
      split_ifs with c1
      · exact next
      · cases xs with
        | nil => exact greedyBnd_refl h1 h2
        | cons x2 xs =>
          simp only
          split_ifs with c2
          · exact next
          · exact greedyBnd_refl h1 h2

theorem oldSmallF_bnd {xs ys : List ℚ} {a b : ℕ} {d : ℚ} {r : ℚ × List ℚ × List ℚ}
    (h1 : (b : ℚ) ≤ d) (h2 : d ≤ (a : ℚ)) (hb : b ≤ a) (ha : a + xs.length ≤ 2 ^ 53)
    (hs : Spread1 xs ys) (hr : oldSmallF R d xs ys = .ok r) : GreedyBnd a b xs ys r := by
  have stop : ∀ {xs ys : List ℚ}, (Except.ok (d, xs, ys) : Except PyErr _) = .ok r →
      GreedyBnd a b xs ys r := by
    intro xs ys h
    injection h with h
    subst h
    exact greedyBnd_refl h1 h2
  induction xs generalizing d ys a with
  | nil =>
    cases ys with
    | nil => simp only [oldSmallF] at hr; exact stop hr
    | cons y ys => simp [oldSmallF] at hr
  | cons x xs ih =>
    cases ys with
    | nil => simp only [oldSmallF] at hr; exact stop hr
    | cons y ys =>
      obtain ⟨hd, hs'⟩ := spread_cons hs
      simp only [List.length_cons] at ha
      have next : oldSmallF R (R.fl (d + |R.fl (x - y)|)) xs ys = .ok r →
          GreedyBnd a b (x :: xs) (y :: ys) r := by
        intro h
        obtain ⟨t1, t2⟩ := step_bnd (R := R) h1 h2 (abs_nonneg _) (dist_le_one (R := R) hd) hb (by omega)
        refine (ih t1 t2 (by omega) (by omega) hs' h ?_).step
        intro xs ys h
        injection h with h
        subst h
        exact greedyBnd_refl t1 t2
      rw [oldSmallF.eq_def] at hr
      simp only at hr
      split_ifs at hr with c1
      · rw [fl_sub_eq_abs c1] at hr
        exact next hr
      · cases xs with
        | nil => exact stop hr
        | cons x2 xs =>
          simp only at hr
          split_ifs at hr with c2
          · rw [fl_sub_eq_abs (not_le.1 c1).le, abs_fl_sub_comm] at hr
            exact next hr
          · exact stop hr

theorem oldLargeF_bnd {xs ys : List ℚ} {a b : ℕ} {d : ℚ} {r : ℚ × List ℚ × List ℚ}
    (h1 : (b : ℚ) ≤ d) (h2 : d ≤ (a : ℚ)) (hb : b ≤ a) (ha : a + xs.length ≤ 2 ^ 53)
    (hs : Spread1 xs ys) (hr : oldLargeF R d xs ys = .ok r) : GreedyBnd a b xs ys r := by
  have stop : ∀ {xs ys : List ℚ}, (Except.ok (d, xs, ys) : Except PyErr _) = .ok r →
      GreedyBnd a b xs ys r := by
    intro xs ys h
    injection h with h
    subst h
    exact greedyBnd_refl h1 h2
  induction xs generalizing d ys a with
  | nil =>
    cases ys with
    | nil => simp only [oldLargeF] at hr; exact stop hr
    | cons y ys => simp [oldLargeF] at hr
  | cons x xs ih =>
    cases ys with
    | nil => simp only [oldLargeF] at hr; exact stop hr
    | cons y ys =>
      obtain ⟨hd, hs'⟩ := spread_cons hs
      simp only [List.length_cons] at ha
      rw [oldLargeF.eq_def] at hr
      simp only at hr
      split_ifs at hr with c1
      · rw [fl_sub_eq_abs c1, abs_fl_sub_comm] at hr
        obtain ⟨t1, t2⟩ := step_bnd (R := R) h1 h2 (abs_nonneg _) (dist_le_one (R := R) hd) hb (by omega)
        refine (ih t1 t2 (by omega) (by omega) hs' hr ?_).step
        intro xs ys h
        injection h with h
        subst h
        exact greedyBnd_refl t1 t2
      · cases xs with
        | nil => exact stop hr
        | cons x2 xs =>
          simp only at hr
          rw [if_neg (fun h => oldLargeF_dead c1 h.2)] at hr
          exact stop hr

/-! ## Costs of what is left -/

theorem singleCostF_bnd {xs : List ℚ} {y v : ℚ} (hs : Spread1 xs [y]) (hN : xs.length + 1 ≤ 2 ^ 53)
    (h : singleCostF R xs y = .ok v) :
    1 ≤ xs.length ∧ ((xs.length - 1 : ℕ) : ℚ) ≤ v ∧ v ≤ xs.length := by
  unfold singleCostF at h
  have hne : xs ≠ [] := by
    rintro rfl
    simp [pyMin, bind, Except.bind] at h
  have hlen : 1 ≤ xs.length := List.length_pos_iff.2 hne
  have e := singleCost_eq hne hs.two
  unfold singleCost at e
  cases hm : pyMin (xs.map (fun x => |x - y|)) with
  | error _ => rw [hm] at e; cases e
  | ok m =>
    obtain ⟨m', e', _, hmem⟩ := Rel.pyMin (R := R) (k := 1) (f := fun x => |R.fl (x - y)|)
      (g := fun x => |x - y|) (l := xs) (fun x _ => rel_dist x y) hm
    rw [e'] at h
    simp only [bind, Except.bind, pure, Except.pure, Except.ok.injEq] at h
    obtain ⟨x, hx, rfl⟩ := List.mem_map.1 hmem
    have m0 : 0 ≤ |R.fl (x - y)| := abs_nonneg _
    have m1 := dist_le_one (R := R) (hs x hx y (by simp))
    have q := Nat.cast_sub (R := ℚ) hlen
    push_cast at q
    subst h
    refine ⟨hlen, nat_le_fl (by omega) ?_, fl_le_nat (by omega) ?_⟩
    · have := nat_le_fl (R := R) (x := |R.fl (x - y)| + xs.length) (n := xs.length) (by omega)
        (by linarith)
      rw [q]; linarith
    · have := fl_le_nat (R := R) (x := |R.fl (x - y)| + xs.length) (n := xs.length + 1) (by omega)
        (by push_cast; linarith)
      push_cast at this
      linarith

theorem pyMin_mem {l : List ℚ} {m : ℚ} (h : pyMin l = .ok m) : m ∈ l := by
  have : ∀ (l : List ℚ) (a : ℚ), l.foldl min a ∈ a :: l := by
    intro l
    induction l with
    | nil => intro a; simp
    | cons b l ih =>
      intro a
      have := ih (min a b)
      simp only [List.foldl_cons, List.mem_cons] at this ⊢
      rcases this with h | h
      · rcases min_choice a b with e | e
        · exact Or.inl (h.trans e)
        · exact Or.inr (Or.inl (h.trans e))
      · exact Or.inr (Or.inr h)
  cases l with
  | nil => simp [pyMin] at h
  | cons a l =>
    simp only [pyMin, Except.ok.injEq] at h
    rw [← h]
    exact this l a

theorem comboCostsF_bnd {xs ys : List ℚ} {m : ℚ} (h : pyMin (comboCostsF R xs ys) = .ok m) :
    m ≤ ys.length := by
  have : ∀ (l : List ℚ) (a : ℚ), l.foldl min a ≤ a := by
    intro l
    induction l with
    | nil => intro a; exact le_rfl
    | cons b l ih => intro a; exact (ih _).trans (min_le_left _ _)
  unfold comboCostsF pyMin at h
  simp only [Except.ok.injEq] at h
  rw [← h]
  exact this _ _

theorem zipCostF_le {xs ys : List ℚ} (hs : Spread1 xs ys) (hN : xs.length ≤ 2 ^ 53)
    (hM : ((xs.length : ℕ) : ℕ∞) ≤ R.sumMax) : zipCostF R xs ys ≤ xs.length := by
  have hl : (List.zipWith (fun x y => |R.fl (x - y)|) xs ys).length ≤ xs.length := by
    rw [List.length_zipWith]; exact min_le_left _ _
  have hv : ∀ v ∈ List.zipWith (fun x y => |R.fl (x - y)|) xs ys, (0 ≤ v ∧ R.fl v = v) ∧ v ≤ 1 := by
    intro v hv
    rw [← List.map_uncurry_zip_eq_zipWith] at hv
    obtain ⟨⟨x, y⟩, hp, rfl⟩ := List.mem_map.1 hv
    have := List.of_mem_zip hp
    refine ⟨⟨abs_nonneg _, ?_⟩, dist_le_one (hs x this.1 y this.2)⟩
    change R.fl |R.fl (x - y)| = |R.fl (x - y)|
    rw [abs_fl, R.idem]
  refine (R.sum_le _ (fun v h => (hv v h).1) (le_trans (Nat.cast_le.2 hl) hM) (hl.trans hN)
    (fun v h => (hv v h).2)).trans ?_
  exact_mod_cast hl

/-! ## Components -/

/-- The accumulated distance is at least the surplus of `x` points and at most their number. -/
def AccBnd (L : List (ℚ × Bool)) (seen : ℕ) (d _e : ℚ) : Prop :=
  (((xsOf (L.take seen)).length - (ysOf (L.take seen)).length : ℕ) : ℚ) ≤ d ∧
    d ≤ (xsOf (L.take seen)).length

theorem xsOf_add_ysOf (G : List (ℚ × Bool)) : (xsOf G).length + (ysOf G).length = G.length := by
  induction G with
  | nil => rfl
  | cons p G ih =>
    obtain ⟨a, b⟩ := p
    cases b <;> simp <;> omega

theorem noY_ysOf {L : List (ℚ × Bool)} {s l : ℕ}
    (hgap : ∀ i a, s ≤ i → i < l → L[i]? ≠ some (a, true)) : ysOf ((L.take l).drop s) = [] := by
  rw [List.eq_nil_iff_forall_not_mem]
  intro a ha
  unfold ysOf at ha
  obtain ⟨p, hp, rfl⟩ := List.mem_map.1 ha
  obtain ⟨hp1, hp2⟩ := List.mem_filter.1 hp
  obtain ⟨i, hi⟩ := List.mem_iff_getElem?.1 hp1
  rw [List.getElem?_drop, List.getElem?_take] at hi
  split_ifs at hi with c
  refine hgap (s + i) p.1 (by omega) c ?_
  rw [hi, ← hp2]

/-- Numbers of points up to a component and its end. -/
theorem counts {L : List (ℚ × Bool)} {s l r : ℕ} (h1 : s ≤ l) (h2 : l ≤ r) (h3 : r < L.length)
    (hgap : ∀ i a, s ≤ i → i < l → L[i]? ≠ some (a, true)) :
    (xsOf (L.take (r + 1))).length = (xsOf (L.take s)).length + (l - s) + (xsOf (seg L l r)).length ∧
    (ysOf (L.take (r + 1))).length = (ysOf (L.take s)).length + (ysOf (seg L l r)).length := by
  have e : L.take (r + 1) = (L.take s ++ (L.take l).drop s) ++ seg L l r := by
    have a : L.take (r + 1) = (L.take (r + 1)).take l ++ seg L l r := by
      unfold seg; rw [List.take_append_drop]
    rw [List.take_take, min_eq_left (by omega)] at a
    have b : L.take l = (L.take l).take s ++ (L.take l).drop s := (List.take_append_drop _ _).symm
    rw [List.take_take, min_eq_left h1] at b
    rw [a]
    conv_lhs => rw [b]
  have g := noY_ysOf hgap
  have g2 := xsOf_add_ysOf ((L.take l).drop s)
  rw [g, List.length_drop, List.length_take] at g2
  simp only [List.length_nil] at g2
  rw [e]
  simp only [xsOf_append, ysOf_append, List.length_append, g, List.length_nil]
  omega

theorem gapF_bnd {L : List (ℚ × Bool)} {d e : ℚ} {seen l : ℕ} (h1 : seen ≤ l)
    (hN : (xsOf (L.take seen)).length + (l - seen) ≤ 2 ^ 53) (h : AccBnd L seen d e) :
    let d' := if l > seen then R.fl (d + ((l : ℚ) - seen)) else d
    (((xsOf (L.take seen)).length - (ysOf (L.take seen)).length + (l - seen) : ℕ) : ℚ) ≤ d' ∧
      d' ≤ (((xsOf (L.take seen)).length + (l - seen) : ℕ) : ℚ) := by
  obtain ⟨a, b⟩ := h
  have q := Nat.cast_sub (R := ℚ) h1
  simp only
  split_ifs with c
  · exact ⟨nat_le_fl (by omega) (by rw [Nat.cast_add, q]; linarith),
      fl_le_nat (by omega) (by rw [Nat.cast_add, q]; linarith)⟩
  · have : l - seen = 0 := by omega
    simpa [this] using ⟨a, b⟩

/-- From the bounds after the greedy loops to the bounds after the component. -/
theorem accBnd_fin {L : List (ℚ × Bool)} {s l r g lx ly : ℕ} {d v e : ℚ} (h1 : s ≤ l) (h2 : l ≤ r)
    (h3 : r < L.length) (hN : L.length ≤ 2 ^ 53)
    (hgap : ∀ i a, s ≤ i → i < l → L[i]? ≠ some (a, true))
    (hx : (xsOf (seg L l r)).length = lx + g) (hy : (ysOf (seg L l r)).length = ly + g)
    (d1 : (((xsOf (L.take s)).length - (ysOf (L.take s)).length + (l - s) : ℕ) : ℚ) ≤ d)
    (d2 : d ≤ (((xsOf (L.take s)).length + (l - s) + g : ℕ) : ℚ))
    (v1 : ((lx - ly : ℕ) : ℚ) ≤ v) (v2 : v ≤ (lx : ℚ)) : AccBnd L (r + 1) (R.fl (d + v)) e := by
  obtain ⟨c1, c2⟩ := counts h1 h2 h3 hgap
  have c3 := xsOf_add_ysOf (L.take (r + 1))
  rw [List.length_take] at c3
  unfold AccBnd
  rw [c1, c2, hx, hy] at *
  constructor
  · refine nat_le_fl (by omega) (le_trans ?_ (add_le_add d1 v1))
    rw [← Nat.cast_add]
    exact_mod_cast (by omega)
  · refine fl_le_nat (by omega) ((add_le_add d2 v2).trans ?_)
    rw [← Nat.cast_add]
    exact_mod_cast (by omega)

theorem hybridComponentF_bnd {L : List (ℚ × Bool)}
    (hs : Spread1 (xsOf L) (ysOf L)) (hN : L.length ≤ 2 ^ 53) :
    CompRel L (AccBnd L) (hybridComponentF R L) := by
  intro d e seen l r h1 h2 h3 hgap hlen hP
  have hd : (if l > seen then R.fl (d + (countX L seen l : ℚ)) else d) =
      (if l > seen then R.fl (d + ((l : ℚ) - seen)) else d) := by
    split_ifs with h
    · rw [countX_gap h1 (by omega) hgap, Nat.cast_sub h1]
    · rfl
  obtain ⟨c1, c2⟩ := counts h1 h2 h3 hgap
  have c3 := xsOf_add_ysOf (L.take (r + 1))
  have c4 := xsOf_add_ysOf (L.take seen)
  rw [List.length_take] at c3 c4
  obtain ⟨a1, a2⟩ := gapF_bnd (R := R) h1 (by omega) hP
  have hsub := seg_sublist L l r
  have hs' : Spread1 (xsOf (seg L l r)) (ysOf (seg L l r)) :=
    hs.mono (xsOf_subset hsub) (ysOf_subset hsub)
  unfold hybridComponentF
  simp only [hd, componentOf_false, componentOf_true]
  generalize (if l > seen then R.fl (d + ((l : ℚ) - seen)) else d) = d1 at *
  have g := greedySmallF_bnd (R := R) a1 a2 (by omega) (by omega) hs'
  generalize greedySmallF R d1 (xsOf (seg L l r)) (ysOf (seg L l r)) = G at *
  obtain ⟨⟨g1, b1, b2, b3, b4⟩, sx, sy⟩ := g
  have k := greedyLargeF_bnd (R := R) b3 b4 (by omega) (xs := G.2.1.reverse) (ys := G.2.2.reverse)
    (by simp only [List.length_reverse]; omega) (hs'.mono sx sy).reverse
  generalize greedyLargeF R G.1 G.2.1.reverse G.2.2.reverse = H at *
  obtain ⟨⟨g2, k1, k2, k3, k4⟩, tx, ty⟩ := k
  simp only [List.length_reverse] at k1 k2
  have hsH : Spread1 H.2.1 H.2.2 := (hs'.mono sx sy).reverse.mono tx ty
  have fin : ∀ v e', ((H.2.1.length - H.2.2.length : ℕ) : ℚ) ≤ v → v ≤ H.2.1.length →
      AccBnd L (r + 1) (R.fl (H.1 + v)) e' := fun v e' v1 v2 =>
    accBnd_fin h1 h2 h3 hN hgap (g := g1 + g2) (by omega) (by omega) k3
      (by rwa [← Nat.add_assoc]) v1 v2
  split_ifs with q1 q2
  · simp only [List.length_reverse] at q1 ⊢
    exact ⟨_, rfl, fin _ _ (by simp [q1]) le_rfl⟩
  · simp only [List.length_reverse] at q1 q2
    omega
  · rw [dpFallbackF_ok]
    refine ⟨_, rfl, fin _ _ ?_ ?_⟩
    · rw [Nat.cast_sub (by omega)]
      have := alignF_ge (R := R) H.2.1.reverse.reverse H.2.2.reverse.reverse (by simp; omega)
      simpa using this
    · have := alignF_le_max (R := R) H.2.1.reverse.reverse H.2.2.reverse.reverse
        (by simp; omega) (fun x hx y hy => hsH x (by simpa using hx) y (by simpa using hy))
      rw [List.length_reverse, List.length_reverse, List.length_reverse, List.length_reverse,
        max_eq_left (by omega)] at this
      exact this

theorem oldComponentF_bnd (hu : R.u ≤ 1 / 2) {L : List (ℚ × Bool)} (hL : L.Pairwise LocLe)
    (hs : Spread1 (xsOf L) (ysOf L)) (hN : L.length + 1 ≤ 2 ^ 53)
    (hM : ((L.length : ℕ) : ℕ∞) ≤ R.sumMax) :
    CompRel L (fun s d e => Acc R 1 L s d e ∧ AccBnd L s d e) (oldComponentF R L) := by
  intro d e seen l r h1 h2 h3 hgap hlen hP
  obtain ⟨d', ed, hacc⟩ := oldComponentF_ok hu hL hs (by omega) hM d e seen l r h1 h2 h3 hgap hlen
    hP.1
  refine ⟨d', ed, hacc, ?_⟩
  obtain ⟨c1, c2⟩ := counts h1 h2 h3 hgap
  have c3 := xsOf_add_ysOf (L.take (r + 1))
  have c4 := xsOf_add_ysOf (L.take seen)
  rw [List.length_take] at c3 c4
  obtain ⟨a1, a2⟩ := gapF_bnd (R := R) h1 (by omega) hP.2
  have hsub := seg_sublist L l r
  have hseg : (seg L l r).Pairwise LocLe := hL.sublist hsub
  have hs' : Spread1 (xsOf (seg L l r)) (ysOf (seg L l r)) :=
    hs.mono (xsOf_subset hsub) (ysOf_subset hsub)
  unfold oldComponentF at ed
  simp only [sliceOf_false, sliceOf_true] at ed
  generalize (if l > seen then R.fl (d + ((l : ℚ) - seen)) else d) = d1 at *
  cases eG : oldSmallF R d1 (xsOf (seg L l r)) (ysOf (seg L l r)) with
  | error _ => simp [eG, bind, Except.bind] at ed
  | ok G =>
    obtain ⟨⟨g1, b1, b2, b3, b4⟩, sx, sy⟩ := oldSmallF_bnd a1 a2 (by omega) (by omega) hs' eG
    simp only [eG, bind, Except.bind] at ed
    cases eH : oldLargeF R G.1 G.2.1.reverse G.2.2.reverse with
    | error _ => simp [eH] at ed
    | ok H =>
      obtain ⟨⟨g2, k1, k2, k3, k4⟩, tx, ty⟩ := oldLargeF_bnd b3 b4 (by omega)
        (by simp only [List.length_reverse]; omega) (hs'.mono sx sy).reverse eH
      simp only [List.length_reverse] at k1 k2
      have hsH : Spread1 H.2.1.reverse H.2.2.reverse :=
        ((hs'.mono sx sy).reverse.mono tx ty).reverse
      simp only [eH] at ed
      have fin : ∀ v e', ((H.2.1.reverse.length - H.2.2.reverse.length : ℕ) : ℚ) ≤ v →
          v ≤ H.2.1.reverse.length → AccBnd L (r + 1) (R.fl (H.1 + v)) e' := fun v e' v1 v2 =>
        accBnd_fin h1 h2 h3 (by omega) hgap (g := g1 + g2) (lx := H.2.1.reverse.length)
          (ly := H.2.2.reverse.length) (by simp only [List.length_reverse]; omega)
          (by simp only [List.length_reverse]; omega) k3 (by rwa [← Nat.add_assoc]) v1 v2
      have hlx : H.2.1.reverse.length + 1 ≤ 2 ^ 53 := by simp only [List.length_reverse]; omega
      have hlH : H.2.2.reverse.length ≤ H.2.1.reverse.length := by
        simp only [List.length_reverse]; omega
      have hls : H.2.2.reverse.length + H.2.1.reverse.length ≤ 2 ^ 53 := by
        simp only [List.length_reverse]; omega
      have hyM : H.2.2.reverse.length ≤ L.length := by simp only [List.length_reverse]; omega
      generalize H.2.1.reverse = cx at *
      generalize H.2.2.reverse = cy at *
      match cy, hsH, hlH, fin, hls, hyM, ed with
      | [], _, _, fin, _, _, ed =>
        simp only [pure, Except.pure, Except.ok.injEq] at ed
        rw [← ed]
        exact fin _ _ (by simp) le_rfl
      | [y], hsH, hlH, fin, _, _, ed =>
        cases ev : singleCostF R cx y with
        | error _ => simp [ev] at ed
        | ok v =>
          simp only [ev, pure, Except.pure, Except.ok.injEq] at ed
          obtain ⟨_, s1, s2⟩ := singleCostF_bnd hsH hlx ev
          rw [← ed]
          exact fin _ _ s1 s2
      | y :: y' :: ys, hsH, hlH, fin, hls, hyM, ed =>
        cases em : pyMin (comboCostsF R cx (y :: y' :: ys)) with
        | error _ => simp [em] at ed
        | ok m =>
          simp only [em, pure, Except.pure, Except.ok.injEq] at ed
          have m1 := comboCostsF_bnd em
          have m0 : 0 ≤ m := by
            have hmem : m ∈ comboCostsF R cx (y :: y' :: ys) := pyMin_mem em
            unfold comboCostsF at hmem
            rcases List.mem_cons.1 hmem with rfl | hmem
            · positivity
            · obtain ⟨c, _, rfl⟩ := List.mem_map.1 hmem
              exact (rel_zipCost hM ((min_le_right _ _).trans hyM)).2
          generalize y :: y' :: ys = cy at *
          rw [← ed]
          have hlq : ((cy.length : ℕ) : ℚ) ≤ ((cx.length : ℕ) : ℚ) := by exact_mod_cast hlH
          have t1 := nat_le_fl (R := R) (x := m + cx.length) (n := cx.length) (by omega) (by linarith)
          have t2 : R.fl (m + cx.length) ≤ ((cy.length + cx.length : ℕ) : ℚ) :=
            fl_le_nat (by omega) (by push_cast; linarith)
          refine fin _ _ (nat_le_fl (by omega) ?_) (fl_le_nat (by omega) ?_)
          · rw [Nat.cast_sub hlH]; linarith
          · push_cast at t2; linarith

end Fp
end Verif
