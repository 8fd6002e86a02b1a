import Verif.Fp.VarRel

/-!
# The greedy loops and the dynamic programme of the variants in rounded arithmetic

A rounded comparison may prefer the point that is a little further away; what this costs is a
relative error of the distance moved (`greedy_marginal`).
-/

namespace Verif
namespace Fp

open EmdSpec

variable {R : Rounding}

theorem emd_move (xs ys : List ℚ) (y y' : ℚ) : emd xs (y :: ys) ≤ emd xs (y' :: ys) + |y - y'| := by
  have t := emd_triangle xs (y' :: ys) (y :: ys)
  have m := emd_le_match y' y ys ys
  rw [emd_self, add_zero, abs_sub_comm] at m
  linarith

/-- Rounded comparison of distances. -/
theorem fl_le_slack {a b : ℚ} (ha : 0 ≤ a) (hb : 0 ≤ b) (h : R.fl a ≤ R.fl b) :
    (1 - R.u) * a ≤ (1 + R.u) * b := (fl_lower ha).trans (h.trans (fl_upper hb))

/-- Matching the smallest points although the next one is a little closer. -/
theorem greedy_marginal {x x2 y : ℚ} {xs ys : List ℚ} (hx : (x :: x2 :: xs).Pairwise (· ≤ ·))
    (hy : (y :: ys).Pairwise (· ≤ ·)) (hs : Spread1 (x :: x2 :: xs) (y :: ys))
    (hl : ys.length ≤ (x2 :: xs).length) (h1 : x < y) (h2 : y < x2)
    (h3 : R.fl (y - x) ≤ R.fl (x2 - y)) :
    emd (x :: x2 :: xs) (y :: ys) - emd (x2 :: xs) ys ≤ |x - y| ∧
    (1 - R.u) * |x - y| ≤ (1 + R.u) * (emd (x :: x2 :: xs) (y :: ys) - emd (x2 :: xs) ys) := by
  have hu := R.u_pos
  have hu1 := R.u_lt
  have hm := emd_le_match x y (x2 :: xs) ys
  refine ⟨by linarith, ?_⟩
  have ha : |x - y| = y - x := by rw [abs_sub_comm, abs_of_pos (by linarith)]
  rcases le_or_gt (y - x) (x2 - y) with h | h
  · rw [emd_greedy_small2 hx hy hs.two hl h1 h2 h, ha]
    nlinarith
  · have hsl := fl_le_slack (R := R) (by linarith) (by linarith) h3
    set y' := (x + x2) / 2 with hy'
    have e1 : x < y' := by rw [hy']; linarith
    have e2 : y' < y := by rw [hy']; linarith
    have e3 : y' < x2 := by linarith
    have hs' : Spread2 (x :: x2 :: xs) (y' :: ys) := by
      intro a ha b hb
      rcases List.mem_cons.1 hb with rfl | hb
      · have t1 := abs_le.1 (hs a ha y (by simp))
        have t2 := abs_le.1 (hs x (by simp) y (by simp))
        rw [abs_le]
        constructor <;> linarith
      · exact (hs a ha b (by simp [hb])).trans (by norm_num)
    have hyy : (y' :: ys).Pairwise (· ≤ ·) := by
      rw [List.pairwise_cons] at hy ⊢
      exact ⟨fun a ha => e2.le.trans (hy.1 a ha), hy.2⟩
    have e := emd_greedy_small2 hx hyy hs' hl e1 e3 (by rw [hy']; linarith)
    have mv := emd_move (x :: x2 :: xs) ys y' y
    rw [e, abs_sub_comm x y', abs_of_pos (by linarith), abs_sub_comm, abs_of_pos (by linarith)] at mv
    rw [ha]
    have : (1 + R.u) * ((y - x) - 2 * (y - y')) ≤
        (1 + R.u) * (emd (x :: x2 :: xs) (y :: ys) - emd (x2 :: xs) ys) :=
      mul_le_mul_of_nonneg_left (by linarith) (by linarith)
    refine le_trans ?_ this
    have : (y - x) - 2 * (y - y') = x2 - y := by rw [hy']; ring
    rw [this]
    exact hsl

theorem greedy_marginal_large {x x2 y : ℚ} {xs ys : List ℚ}
    (hx : (x :: x2 :: xs).Pairwise (· ≥ ·)) (hy : (y :: ys).Pairwise (· ≥ ·))
    (hs : Spread1 (x :: x2 :: xs) (y :: ys)) (hl : ys.length ≤ (x2 :: xs).length) (h1 : y < x)
    (h2 : x2 < y) (h3 : R.fl (x - y) ≤ R.fl (y - x2)) :
    emd (x :: x2 :: xs) (y :: ys) - emd (x2 :: xs) ys ≤ |x - y| ∧
    (1 - R.u) * |x - y| ≤ (1 + R.u) * (emd (x :: x2 :: xs) (y :: ys) - emd (x2 :: xs) ys) := by
  have hsn : Spread1 ((x :: x2 :: xs).map (fun a => -a)) ((y :: ys).map (fun a => -a)) := by
    intro a ha b hb
    obtain ⟨p, hp, rfl⟩ := List.mem_map.1 ha
    obtain ⟨q, hq, rfl⟩ := List.mem_map.1 hb
    have e := absd_neg p q
    unfold absd at e
    rw [e]; exact hs p hp q hq
  have := greedy_marginal (R := R) (x := -x) (x2 := -x2) (y := -y) (pairwise_neg' hx)
    (pairwise_neg' hy) hsn (by simpa using hl) (neg_lt_neg h1) (neg_lt_neg h2) (by
      rw [show -y - -x = x - y by ring, show -x2 - -y = y - x2 by ring]; exact h3)
  have e := absd_neg x y
  unfold absd at e
  rw [e, ← List.map_cons (f := fun a : ℚ => -a), ← List.map_cons (f := fun a : ℚ => -a),
    ← List.map_cons (f := fun a : ℚ => -a), emd_neg, emd_neg] at this
  exact this

theorem rel_marginal (hu2 : R.u ≤ 1 / 2) {x y D : ℚ} (h1 : D ≤ |x - y|)
    (h2 : (1 - R.u) * |x - y| ≤ (1 + R.u) * D) : Rel R 4 0 (|R.fl (x - y)|) D ∧ 0 ≤ D := by
  have hu := R.u_pos
  have hu1 := R.u_lt
  have h0 := abs_nonneg (x - y)
  have hD : 0 ≤ D := by
    by_contra h
    have a : (1 + R.u) * D < 0 := mul_neg_of_pos_of_neg (by linarith) (by linarith)
    have b : 0 ≤ (1 - R.u) * |x - y| := mul_nonneg (by linarith) h0
    linarith
  refine ⟨?_, hD⟩
  obtain ⟨r1, r2⟩ := rel_dist (R := R) x y
  simp only [add_zero, pow_one] at r1 r2
  constructor
  · simp only [add_zero]
    have a : (1 - R.u) ^ 4 ≤ (1 - R.u) ^ 1 :=
      pow_le_pow_of_le_one (by linarith) (by linarith) (by norm_num)
    rw [pow_one] at a
    have b := mul_le_mul_of_nonneg_right a hD
    have c := mul_le_mul_of_nonneg_left h1 (show 0 ≤ 1 - R.u by linarith)
    linarith
  · simp only [add_zero]
    refine r2.trans ?_
    have a : 1 ≤ (1 - R.u) * (1 + R.u) ^ 2 := by
      have e : (1 - R.u) * (1 + R.u) ^ 2 = 1 + R.u * (1 - R.u - R.u * R.u) := by ring
      have f : 0 ≤ 1 - R.u - R.u * R.u := by nlinarith
      have := mul_nonneg hu.le f
      linarith
    have b : |x - y| ≤ (1 - R.u) * (1 + R.u) ^ 2 * |x - y| := by nlinarith
    have c := mul_le_mul_of_nonneg_right h2 (show 0 ≤ (1 + R.u) ^ 2 by positivity)
    have d : |x - y| ≤ (1 + R.u) ^ 3 * D := by nlinarith
    calc (1 + R.u) * |x - y| ≤ (1 + R.u) * ((1 + R.u) ^ 3 * D) :=
          mul_le_mul_of_nonneg_left d (by linarith)
      _ = _ := by ring

/-- What the greedy loops preserve: `g` pairs are matched, at a cost known up to rounding. -/
structure GreedyRel (R : Rounding) (o : ℚ → ℚ → Prop) (k : ℕ) (c e : ℚ) (xs ys : List ℚ)
    (r : ℚ × List ℚ × List ℚ) : Prop where
  cost : ∃ e' g, e' + emd r.2.1 r.2.2 = e + emd xs ys ∧ Rel R (k + g) c r.1 e' ∧ 0 ≤ e' ∧
    r.2.1.length + g = xs.length ∧ r.2.2.length + g = ys.length
  pos : 0 ≤ r.1
  sx : r.2.1.Pairwise o
  sy : r.2.2.Pairwise o
  subx : r.2.1 ⊆ xs
  suby : r.2.2 ⊆ ys

theorem greedyRel_refl {o : ℚ → ℚ → Prop} {k : ℕ} {c d e : ℚ} {xs ys : List ℚ}
    (hx : xs.Pairwise o) (hy : ys.Pairwise o) (h : Rel R k c d e) (hd : 0 ≤ d) (he : 0 ≤ e) :
    GreedyRel R o k c e xs ys (d, xs, ys) :=
  ⟨⟨e, 0, rfl, h, he, rfl, rfl⟩, hd, hx, hy, fun _ h => h, fun _ h => h⟩

theorem GreedyRel.step {o : ℚ → ℚ → Prop} {k : ℕ} {c e x y D : ℚ} {xs ys : List ℚ}
    {r : ℚ × List ℚ × List ℚ} (h : GreedyRel R o (k + 1) c (e + D) xs ys r)
    (hD : emd (x :: xs) (y :: ys) = D + emd xs ys) :
    GreedyRel R o k c e (x :: xs) (y :: ys) r := by
  obtain ⟨e', g, h1, h2, h3, h4, h5⟩ := h.cost
  refine ⟨⟨e', g + 1, by rw [h1, hD]; ring, ?_, h3, by simp; omega, by simp; omega⟩, h.pos, h.sx,
    h.sy, fun _ ha => List.mem_cons_of_mem _ (h.subx ha),
    fun _ ha => List.mem_cons_of_mem _ (h.suby ha)⟩
  rw [show k + (g + 1) = k + 1 + g by omega]
  exact h2

theorem Rel.step {k : ℕ} (hk : 4 ≤ k) {c d e w D : ℚ} (h : Rel R k c d e) (hd : 0 ≤ d) (hc : 0 ≤ c)
    (hw : Rel R 4 0 w D) (hw0 : 0 ≤ w) (hD : 0 ≤ D) : Rel R (k + 1) c (R.fl (d + w)) (e + D) := by
  have := (h.add (hw.mono hk le_rfl (by simpa using hD))).fl (add_nonneg hd hw0) (by simpa using hc)
  simpa using this

theorem rel_dist4 (x y : ℚ) : Rel R 4 0 (|R.fl (x - y)|) (|x - y|) :=
  (rel_dist x y).mono (by norm_num) le_rfl (by simp)

theorem greedySmallF_ok (hu : R.u ≤ 1 / 2) {xs ys : List ℚ} {k : ℕ} (hk : 4 ≤ k) {c d e : ℚ}
    (hc : 0 ≤ c) (h0 : Rel R k c d e) (hd : 0 ≤ d) (he : 0 ≤ e)
    (hx : xs.Pairwise (· ≤ ·)) (hy : ys.Pairwise (· ≤ ·)) (hs : Spread1 xs ys)
    (hl : ys.length ≤ xs.length) :
    GreedyRel R (· ≤ ·) k c e xs ys (greedySmallF R d xs ys) := by
  induction xs generalizing d e ys k with
  | nil =>
    have : ys = [] := List.length_eq_zero_iff.1 (by simpa using hl)
    subst this
    simpa [greedySmallF] using greedyRel_refl hx hy h0 hd he
  | cons x xs ih =>
    cases ys with
    | nil => simpa [greedySmallF] using greedyRel_refl hx hy h0 hd he
    | cons y ys =>
      have hx' := (List.pairwise_cons.1 hx).2
      have hy' := (List.pairwise_cons.1 hy).2
      have hl' : ys.length ≤ xs.length := by simpa using hl
      unfold greedySmallF
      split_ifs with h
      · exact (ih (by omega) (h0.step hk hd hc (rel_dist4 x y) (abs_nonneg _) (abs_nonneg _))
          (fl_nonneg (add_nonneg hd (abs_nonneg _))) (add_nonneg he (abs_nonneg _)) hx' hy' hs.tail
          hl').step (emd_greedy_small hx hy hs.two hl' h)
      · cases xs with
        | nil => exact greedyRel_refl hx hy h0 hd he
        | cons x2 xs =>
          simp only
          split_ifs with h2
          · obtain ⟨m1, m2⟩ := greedy_marginal hx hy hs hl' (not_le.1 h) h2.1 h2.2
            obtain ⟨r1, r2⟩ := rel_marginal hu m1 m2
            rw [abs_fl_sub_comm]
            exact (ih (by omega) (h0.step hk hd hc r1 (abs_nonneg _) r2)
              (fl_nonneg (add_nonneg hd (abs_nonneg _))) (add_nonneg he r2) hx' hy' hs.tail
              hl').step (by ring)
          · exact greedyRel_refl hx hy h0 hd he

theorem greedyLargeF_ok (hu : R.u ≤ 1 / 2) {xs ys : List ℚ} {k : ℕ} (hk : 4 ≤ k) {c d e : ℚ}
    (hc : 0 ≤ c) (h0 : Rel R k c d e) (hd : 0 ≤ d) (he : 0 ≤ e)
    (hx : xs.Pairwise (· ≥ ·)) (hy : ys.Pairwise (· ≥ ·)) (hs : Spread1 xs ys)
    (hl : ys.length ≤ xs.length) :
    GreedyRel R (· ≥ ·) k c e xs ys (greedyLargeF R d xs ys) := by
  induction xs generalizing d e ys k with
  | nil =>
    have : ys = [] := List.length_eq_zero_iff.1 (by simpa using hl)
    subst this
    simpa [greedyLargeF] using greedyRel_refl hx hy h0 hd he
  | cons x xs ih =>
    cases ys with
    | nil => simpa [greedyLargeF] using greedyRel_refl hx hy h0 hd he
    | cons y ys =>
      have hx' := (List.pairwise_cons.1 hx).2
      have hy' := (List.pairwise_cons.1 hy).2
      have hl' : ys.length ≤ xs.length := by simpa using hl
      unfold greedyLargeF
      split_ifs with h
      · rw [abs_fl_sub_comm]
        exact (ih (by omega) (h0.step hk hd hc (rel_dist4 x y) (abs_nonneg _) (abs_nonneg _))
          (fl_nonneg (add_nonneg hd (abs_nonneg _))) (add_nonneg he (abs_nonneg _)) hx' hy' hs.tail
          hl').step (emd_greedy_large hx hy hs.two hl' h)
      · cases xs with
        | nil => exact greedyRel_refl hx hy h0 hd he
        | cons x2 xs =>
          simp only
          split_ifs with h2
          · obtain ⟨m1, m2⟩ := greedy_marginal_large hx hy hs hl' (not_le.1 h) h2.1 h2.2
            obtain ⟨r1, r2⟩ := rel_marginal hu m1 m2
            rw [abs_fl_sub_comm]
            exact (ih (by omega) (h0.step hk hd hc r1 (abs_nonneg _) r2)
              (fl_nonneg (add_nonneg hd (abs_nonneg _))) (add_nonneg he r2) hx' hy' hs.tail
              hl').step (by ring)
          · exact greedyRel_refl hx hy h0 hd he

theorem fl_sub_eq_abs {x y : ℚ} (h : y ≤ x) : R.fl (x - y) = |R.fl (x - y)| :=
  (abs_of_nonneg (fl_nonneg (by linarith))).symm

theorem oldSmallF_ok (hu : R.u ≤ 1 / 2) {xs ys : List ℚ} {k : ℕ} (hk : 4 ≤ k) {c d e : ℚ}
    (hc : 0 ≤ c) (h0 : Rel R k c d e) (hd : 0 ≤ d) (he : 0 ≤ e)
    (hx : xs.Pairwise (· ≤ ·)) (hy : ys.Pairwise (· ≤ ·)) (hs : Spread1 xs ys)
    (hl : ys.length ≤ xs.length) :
    ∃ r, oldSmallF R d xs ys = .ok r ∧ GreedyRel R (· ≤ ·) k c e xs ys r := by
  induction xs generalizing d e ys k with
  | nil =>
    have : ys = [] := List.length_eq_zero_iff.1 (by simpa using hl)
    subst this
    exact ⟨_, by simp [oldSmallF], greedyRel_refl hx hy h0 hd he⟩
  | cons x xs ih =>
    cases ys with
    | nil => exact ⟨_, by simp [oldSmallF], greedyRel_refl hx hy h0 hd he⟩
    | cons y ys =>
      have hx' := (List.pairwise_cons.1 hx).2
      have hy' := (List.pairwise_cons.1 hy).2
      have hl' : ys.length ≤ xs.length := by simpa using hl
      unfold oldSmallF
      split_ifs with h
      · rw [fl_sub_eq_abs h]
        obtain ⟨r, er, hr⟩ := ih (by omega)
          (h0.step hk hd hc (rel_dist4 x y) (abs_nonneg _) (abs_nonneg _))
          (fl_nonneg (add_nonneg hd (abs_nonneg _))) (add_nonneg he (abs_nonneg _)) hx' hy' hs.tail
          hl'
        exact ⟨r, er, hr.step (emd_greedy_small hx hy hs.two hl' h)⟩
      · cases xs with
        | nil => exact ⟨_, rfl, greedyRel_refl hx hy h0 hd he⟩
        | cons x2 xs =>
          simp only
          split_ifs with h2
          · obtain ⟨m1, m2⟩ := greedy_marginal hx hy hs hl' (not_le.1 h) h2.1 h2.2
            obtain ⟨r1, r2⟩ := rel_marginal hu m1 m2
            rw [fl_sub_eq_abs (not_le.1 h).le, abs_fl_sub_comm]
            obtain ⟨r, er, hr⟩ := ih (by omega) (h0.step hk hd hc r1 (abs_nonneg _) r2)
              (fl_nonneg (add_nonneg hd (abs_nonneg _))) (add_nonneg he r2) hx' hy' hs.tail hl'
            exact ⟨r, er, hr.step (by ring)⟩
          · exact ⟨_, rfl, greedyRel_refl hx hy h0 hd he⟩

/-- The second branch of the larger end of `emd_1d_old` is never taken, rounded or not. -/
theorem oldLargeF_dead {x y : ℚ} (h : ¬ y ≥ x) : ¬ (R.fl (x - y) ≤ R.fl (y - x)) := by
  have hu1 := R.u_lt
  have : y < x := not_le.1 h
  intro h2
  have a := fl_lower (R := R) (x := x - y) (by linarith)
  rw [← neg_sub x y, R.odd] at h2
  have : 0 < (1 - R.u) * (x - y) := mul_pos (by linarith) (by linarith)
  linarith

theorem oldLargeF_ok {xs ys : List ℚ} {k : ℕ} (hk : 4 ≤ k) {c d e : ℚ}
    (hc : 0 ≤ c) (h0 : Rel R k c d e) (hd : 0 ≤ d) (he : 0 ≤ e)
    (hx : xs.Pairwise (· ≥ ·)) (hy : ys.Pairwise (· ≥ ·)) (hs : Spread1 xs ys)
    (hl : ys.length ≤ xs.length) :
    ∃ r, oldLargeF R d xs ys = .ok r ∧ GreedyRel R (· ≥ ·) k c e xs ys r := by
  induction xs generalizing d e ys k with
  | nil =>
    have : ys = [] := List.length_eq_zero_iff.1 (by simpa using hl)
    subst this
    exact ⟨_, by simp [oldLargeF], greedyRel_refl hx hy h0 hd he⟩
  | cons x xs ih =>
    cases ys with
    | nil => exact ⟨_, by simp [oldLargeF], greedyRel_refl hx hy h0 hd he⟩
    | cons y ys =>
      have hx' := (List.pairwise_cons.1 hx).2
      have hy' := (List.pairwise_cons.1 hy).2
      have hl' : ys.length ≤ xs.length := by simpa using hl
      unfold oldLargeF
      split_ifs with h
      · rw [fl_sub_eq_abs h, abs_fl_sub_comm]
        obtain ⟨r, er, hr⟩ := ih (by omega)
          (h0.step hk hd hc (rel_dist4 x y) (abs_nonneg _) (abs_nonneg _))
          (fl_nonneg (add_nonneg hd (abs_nonneg _))) (add_nonneg he (abs_nonneg _)) hx' hy' hs.tail
          hl'
        exact ⟨r, er, hr.step (emd_greedy_large hx hy hs.two hl' h)⟩
      · cases xs with
        | nil => exact ⟨_, rfl, greedyRel_refl hx hy h0 hd he⟩
        | cons x2 xs =>
          simp only
          rw [if_neg (fun h2 => oldLargeF_dead h h2.2)]
          exact ⟨_, rfl, greedyRel_refl hx hy h0 hd he⟩

/-! ## The dynamic programme -/

theorem dpRowCopyF_ok {R : FOps} {x y : List ℚ} {i : Nat} {bufs : List ℚ × List ℚ} (hi : i < x.length)
    (hp : RowOkF R x y i y.length bufs.1) (hl : bufs.2.length = y.length + 1) :
    ∃ b', dpRowCopyF R x y bufs (1 + i) = .ok b' ∧ RowOkF R x y (i + 1) y.length b'.1 ∧
      b'.2.length = y.length + 1 := by
  have hc : RowOkF R x y (i + 1) 0 (bufs.2.set 0 (R.fl ((i + 1 : ℕ) : ℚ))) := by
    refine ⟨by simp [hl], ?_⟩
    intro t ht
    obtain rfl : t = 0 := by omega
    rw [dpValF_zero_right R x y (by omega)]
    simp [hl]
  obtain ⟨c', e', r'⟩ := dpInnerF_ok hi hp hc y.length le_rfl
  refine ⟨(c', c'), ?_, r', r'.1⟩
  rw [Nat.add_comm 1 i]
  simp only [dpRowCopyF, pySet_ok (show 0 < bufs.2.length by omega), bind, Except.bind, e', pure,
    Except.pure]

theorem dpOuterCopyF_ok {R : FOps} (x y : List ℚ) (bufs : List ℚ × List ℚ)
    (hp : RowOkF R x y 0 y.length bufs.1) (hl : bufs.2.length = y.length + 1) :
    ∀ k, k ≤ x.length →
      ∃ b', (List.range' 1 k).foldlM (dpRowCopyF R x y) bufs = .ok b' ∧
        RowOkF R x y k y.length b'.1 ∧ b'.2.length = y.length + 1 := by
  intro k
  induction k with
  | zero => intro _; exact ⟨bufs, rfl, hp, hl⟩
  | succ k ih =>
    intro hk
    obtain ⟨b1, e1, r1, l1⟩ := ih (by omega)
    obtain ⟨b2, e2, r2, l2⟩ := dpRowCopyF_ok (by omega) r1 l1
    refine ⟨b2, ?_, r2, l2⟩
    rw [List.range'_concat, List.foldlM_append, e1]
    simp [bind, Except.bind, e2, pure, Except.pure]

theorem dpRunCopyF_ok {R : FOps} (x y : List ℚ) :
    (do
      let bufs ← (List.range' 1 x.length).foldlM (dpRowCopyF R x y)
        ((List.range (y.length + 1)).map (fun j : ℕ => R.fl (j : ℚ)),
          List.replicate (y.length + 1) 0)
      pyGet bufs.1 y.length : Except PyErr ℚ) = .ok (alignF R x.reverse y.reverse) := by
  have hp : RowOkF R x y 0 y.length
      ((List.range (y.length + 1)).map (fun j : ℕ => R.fl (j : ℚ))) := by
    refine ⟨by simp, ?_⟩
    intro t ht
    rw [dpValF_zero_left R x y ht]
    simp [Nat.lt_succ_of_le ht]
  obtain ⟨b, e, r, _⟩ := dpOuterCopyF_ok x y
    ((List.range (y.length + 1)).map (fun j : ℕ => R.fl (j : ℚ)),
     List.replicate (y.length + 1) 0) hp (by simp) x.length le_rfl
  rw [e]
  simp only [bind, Except.bind]
  rw [pyGet_ok' (r.2 y.length le_rfl)]
  simp [dpValF]

theorem dpFallbackF_ok (x y : List ℚ) :
    dpFallbackF R x y = .ok (alignF R x.reverse y.reverse) := by
  unfold dpFallbackF
  by_cases h : x.length > y.length
  · rw [if_pos h, alignF_comm]
    exact dpRunCopyF_ok y x
  · rw [if_neg h]
    exact dpRunCopyF_ok x y

end Fp
end Verif
