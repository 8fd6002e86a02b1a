import Verif.Fp.RangeIndex
import Verif.Fp.VarWhole

/-!
# The variants of `emd_1d` within the range of exponents
-/

namespace Verif
namespace Fp

open EmdSpec

variable {comp : Bool} {O : FOps}

/-! ## Distances -/

/-- A position within the bounds. -/
def Near (x : ℚ) : Prop := Bd (-1074) 900 1 x

/-- A multiple of the least positive number that is at most `N * 2 ^ 970`. -/
def Far (N : ℕ) (x : ℚ) : Prop := Bd (-1074) 970 N x

theorem Bd.up {e : ℤ} {k N j k' : ℕ} {x : ℚ} (h : Bd e k N x) (hN : N ≤ 2 ^ j) (hk : k + j ≤ k') :
    Bd e k' 1 x := by
  refine ⟨h.grid, h.le.trans ?_⟩
  calc (N : ℚ) * 2 ^ k ≤ 2 ^ j * 2 ^ k :=
        mul_le_mul_of_nonneg_right (by exact_mod_cast hN) (by positivity)
    _ = 2 ^ (k + j) := by rw [← pow_add, Nat.add_comm]
    _ ≤ 2 ^ k' := pow_le_pow_right₀ (by norm_num) hk
    _ = ((1 : ℕ) : ℚ) * 2 ^ k' := by rw [Nat.cast_one, one_mul]

theorem Far.mono {M N : ℕ} {x : ℚ} (h : Far M x) (hN : M ≤ N) : Far N x := Bd.mono h hN

theorem Far.add {M N : ℕ} {x y : ℚ} (hx : Far M x) (hy : Far N y) : Far (M + N) (x + y) := Bd.add hx hy

theorem Far.sub {M N : ℕ} {x y : ℚ} (hx : Far M x) (hy : Far N y) : Far (M + N) (x - y) := Bd.sub hx hy

theorem Far.nat (n : ℕ) : Far n n := Bd.nat (by norm_num) n

theorem Far.one : Far 1 1 := Bd.one (by norm_num)

/-- Rounding is not affected by the range of exponents. -/
theorem Far.fl (hO : IsDouble comp O) {N : ℕ} {x : ℚ} (h : Far N x) (hN : N ≤ 2 ^ 53) :
    O.fl x = (unbounded comp).fl x ∧ Far N ((unbounded comp).fl x) := by
  rw [unbounded_fl]
  exact ⟨hO.fl_eq le_rfl le_rfl hN h, Bd.rne h hN⟩

/-- Distances of positions. -/
theorem near_dist (hO : IsDouble comp O) {x y : ℚ} (hx : Near x) (hy : Near y) :
    O.fl (x - y) = (unbounded comp).fl (x - y) ∧ Bd (-1074) 901 1 ((unbounded comp).fl (x - y)) ∧
      Far 1 ((unbounded comp).fl (x - y)) ∧ Far 1 |(unbounded comp).fl (x - y)| := by
  have h := Bd.sub hx hy
  rw [unbounded_fl]
  have h1 : Bd (-1074) 901 1 (rne (x - y)) :=
    (h.rne (by norm_num)).up (j := 1) (by norm_num) (by norm_num)
  have h2 : Far 1 (rne (x - y)) := h1.up (j := 0) (by norm_num) (by norm_num)
  exact ⟨hO.fl_eq le_rfl (by norm_num) (by norm_num) h, h1, h2, Bd.abs h2⟩

theorem zipCostF_range (hO : IsDouble comp O) {xs ys : List ℚ} (hx : ∀ x ∈ xs, Near x)
    (hy : ∀ y ∈ ys, Near y) (hl : ys.length ≤ 2 ^ 20) :
    zipCostF O xs ys = zipCostF (unbounded comp).toFOps xs ys ∧
      Far 1 (zipCostF (unbounded comp).toFOps xs ys) := by
  have e : List.zipWith (fun x y => |O.fl (x - y)|) xs ys =
      List.zipWith (fun x y => |(unbounded comp).fl (x - y)|) xs ys := by
    rw [← List.map_uncurry_zip_eq_zipWith, ← List.map_uncurry_zip_eq_zipWith]
    refine List.map_congr_left fun p hp => ?_
    obtain ⟨x, y⟩ := p
    have := List.of_mem_zip hp
    change |O.fl (x - y)| = _
    rw [(near_dist hO (hx x this.1) (hy y this.2)).1]
    rfl
  have hv : ∀ v ∈ List.zipWith (fun x y => |(unbounded comp).fl (x - y)|) xs ys,
      Bd (-1074) 901 1 v := by
    intro v hv
    rw [← List.map_uncurry_zip_eq_zipWith] at hv
    obtain ⟨⟨x, y⟩, hp, rfl⟩ := List.mem_map.1 hv
    have := List.of_mem_zip hp
    exact (near_dist hO (hx x this.1) (hy y this.2)).2.1.abs
  have h := sum_range hO le_rfl (by norm_num) _ hv (by
    rw [List.length_zipWith]; exact (min_le_right _ _).trans hl)
  unfold zipCostF sumF
  rw [e]
  exact ⟨h.1, h.2.up (j := 53) le_rfl (by norm_num)⟩

theorem comboCostsF_range (hO : IsDouble comp O) {xs ys : List ℚ} (hx : ∀ x ∈ xs, Near x)
    (hy : ∀ y ∈ ys, Near y) (hl : ys.length ≤ 2 ^ 20) :
    comboCostsF O xs ys = comboCostsF (unbounded comp).toFOps xs ys ∧
      ∀ v ∈ comboCostsF (unbounded comp).toFOps xs ys, Far 1 v := by
  have hc : ∀ c ∈ combinations ys.length xs, ∀ x ∈ c, Near x := fun c hc x hxc =>
    hx x ((mem_combinations.1 hc).1.subset hxc)
  unfold comboCostsF
  constructor
  · congr 1
    exact List.map_congr_left fun c h => (zipCostF_range hO (hc c h) hy hl).1
  · intro v hv
    rcases List.mem_cons.1 hv with rfl | hv
    · exact Bd.up (e := -1074) (k := 0) (Bd.nat (by norm_num) ys.length) hl (by norm_num)
    · obtain ⟨c, h, rfl⟩ := List.mem_map.1 hv
      exact (zipCostF_range hO (hc c h) hy hl).2

theorem singleCostF_range (hO : IsDouble comp O) {xs : List ℚ} {y : ℚ} (hx : ∀ x ∈ xs, Near x)
    (hy : Near y) (hl : xs.length ≤ 2 ^ 20) :
    singleCostF O xs y = singleCostF (unbounded comp).toFOps xs y ∧
      ∀ v, singleCostF (unbounded comp).toFOps xs y = .ok v → Far (xs.length + 2) v := by
  have e : xs.map (fun x => |O.fl (x - y)|) = xs.map (fun x => |(unbounded comp).fl (x - y)|) :=
    List.map_congr_left fun x h => by rw [(near_dist hO (hx x h) hy).1]
  unfold singleCostF
  rw [e]
  cases hm : pyMin (xs.map (fun x => |(unbounded comp).fl (x - y)|)) with
  | error _ => exact ⟨rfl, fun v h => by cases h⟩
  | ok m =>
    obtain ⟨x, h, rfl⟩ := List.mem_map.1 (pyMin_mem hm)
    have h1 := (near_dist hO (hx x h) hy).2.2.2
    obtain ⟨a1, a2⟩ := Far.fl hO (h1.add (Far.nat xs.length)) (by omega)
    obtain ⟨b1, b2⟩ := Far.fl hO (a2.sub Far.one) (by omega)
    constructor
    · change Except.ok _ = Except.ok _
      rw [a1, b1]
    · intro v hv
      have : (unbounded comp).fl ((unbounded comp).fl (|(unbounded comp).fl (x - y)| + xs.length) - 1) = v := by
        injection hv
      rw [← this]
      exact b2.mono (by omega)

/-! ## Greedy matches -/

/-- What holds after the greedy loops. -/
structure GreedyFar (N : ℕ) (xs ys : List ℚ) (r : ℚ × List ℚ × List ℚ) : Prop where
  far : Far (N + xs.length) r.1
  sx : r.2.1 ⊆ xs
  sy : r.2.2 ⊆ ys
  lx : r.2.1.length ≤ xs.length
  ly : r.2.2.length ≤ ys.length

theorem GreedyFar.refl {N : ℕ} {d : ℚ} {xs ys : List ℚ} (h : Far N d) : GreedyFar N xs ys (d, xs, ys) :=
  ⟨h.mono (by omega), fun _ h => h, fun _ h => h, le_rfl, le_rfl⟩

theorem GreedyFar.cons {N : ℕ} {x y : ℚ} {xs ys : List ℚ} {r : ℚ × List ℚ × List ℚ}
    (h : GreedyFar (N + 1) xs ys r) : GreedyFar N (x :: xs) (y :: ys) r :=
  ⟨h.far.mono (by rw [List.length_cons]; omega), fun _ m => List.mem_cons_of_mem _ (h.sx m),
    fun _ m => List.mem_cons_of_mem _ (h.sy m), h.lx.trans (by simp), h.ly.trans (by simp)⟩

theorem greedySmallF_range (hO : IsDouble comp O) (xs : List ℚ) : ∀ (ys : List ℚ) (d : ℚ) (N : ℕ),
    (∀ x ∈ xs, Near x) → (∀ y ∈ ys, Near y) → Far N d → N + xs.length ≤ 2 ^ 53 →
    greedySmallF O d xs ys = greedySmallF (unbounded comp).toFOps d xs ys ∧
      GreedyFar N xs ys (greedySmallF (unbounded comp).toFOps d xs ys) := by
  induction xs with
  | nil =>
    intro ys d N _ _ hd _
    simp only [greedySmallF]
    exact ⟨trivial, .refl hd⟩
  | cons x xs ih =>
    intro ys d N hx hy hd hN
    cases ys with
    | nil =>
      simp only [greedySmallF]
      exact ⟨trivial, .refl hd⟩
    | cons y ys =>
      rw [List.length_cons] at hN
      have nx := hx x List.mem_cons_self
      have ny := hy y List.mem_cons_self
      obtain ⟨p1, -, -, p2⟩ := near_dist hO nx ny
      obtain ⟨q1, -, -, q2⟩ := near_dist hO ny nx
      obtain ⟨a1, a2⟩ := Far.fl hO (hd.add p2) (by omega)
      obtain ⟨b1, b2⟩ := Far.fl hO (hd.add q2) (by omega)
      have hx' := fun z hz => hx z (List.mem_cons_of_mem x hz)
      have hy' := fun z hz => hy z (List.mem_cons_of_mem y hz)
      obtain ⟨i1, j1⟩ := ih ys _ (N + 1) hx' hy' a2 (by omega)
      obtain ⟨i2, j2⟩ := ih ys _ (N + 1) hx' hy' b2 (by omega)
      simp only [greedySmallF]
      by_cases h : y ≤ x
      · rw [if_pos h, if_pos h, p1, a1]
        exact ⟨i1, j1.cons⟩
      · rw [if_neg h, if_neg h]
        cases xs with
        | nil => exact ⟨rfl, .refl hd⟩
        | cons x2 xs =>
          obtain ⟨r1, -⟩ := near_dist hO (hx' x2 List.mem_cons_self) ny
          simp only [q1, r1]
          split
          · rw [b1]
            exact ⟨i2, j2.cons⟩
          · exact ⟨rfl, .refl hd⟩

theorem greedyLargeF_range (hO : IsDouble comp O) (xs : List ℚ) : ∀ (ys : List ℚ) (d : ℚ) (N : ℕ),
    (∀ x ∈ xs, Near x) → (∀ y ∈ ys, Near y) → Far N d → N + xs.length ≤ 2 ^ 53 →
    greedyLargeF O d xs ys = greedyLargeF (unbounded comp).toFOps d xs ys ∧
      GreedyFar N xs ys (greedyLargeF (unbounded comp).toFOps d xs ys) := by
  induction xs with
  | nil =>
    intro ys d N _ _ hd _
    simp only [greedyLargeF]
    exact ⟨trivial, .refl hd⟩
  | cons x xs ih =>
    intro ys d N hx hy hd hN
    cases ys with
    | nil =>
      simp only [greedyLargeF]
      exact ⟨trivial, .refl hd⟩
    | cons y ys =>
      rw [List.length_cons] at hN
      have nx := hx x List.mem_cons_self
      have ny := hy y List.mem_cons_self
      obtain ⟨p1, -, -, p2⟩ := near_dist hO nx ny
      obtain ⟨q1, -, -, q2⟩ := near_dist hO ny nx
      obtain ⟨b1, b2⟩ := Far.fl hO (hd.add q2) (by omega)
      have hx' := fun z hz => hx z (List.mem_cons_of_mem x hz)
      have hy' := fun z hz => hy z (List.mem_cons_of_mem y hz)
      obtain ⟨i2, j2⟩ := ih ys _ (N + 1) hx' hy' b2 (by omega)
      simp only [greedyLargeF]
      by_cases h : y ≥ x
      · rw [if_pos h, if_pos h, q1, b1]
        exact ⟨i2, j2.cons⟩
      · rw [if_neg h, if_neg h]
        cases xs with
        | nil => exact ⟨rfl, .refl hd⟩
        | cons x2 xs =>
          obtain ⟨r1, -⟩ := near_dist hO ny (hx' x2 List.mem_cons_self)
          simp only [p1, q1, r1]
          split
          · rw [b1]
            exact ⟨i2, j2.cons⟩
          · exact ⟨rfl, .refl hd⟩

theorem oldSmallF_range (hO : IsDouble comp O) (xs : List ℚ) : ∀ (ys : List ℚ) (d : ℚ) (N : ℕ),
    (∀ x ∈ xs, Near x) → (∀ y ∈ ys, Near y) → Far N d → N + xs.length ≤ 2 ^ 53 →
    oldSmallF O d xs ys = oldSmallF (unbounded comp).toFOps d xs ys ∧
      ∀ r, oldSmallF (unbounded comp).toFOps d xs ys = .ok r → GreedyFar N xs ys r := by
  have stop : ∀ {N : ℕ} {d : ℚ} {xs ys : List ℚ}, Far N d →
      ∀ r, (Except.ok (d, xs, ys) : Except PyErr _) = .ok r → GreedyFar N xs ys r := by
    intro N d xs ys h r hr
    injection hr with hr
    rw [← hr]
    exact .refl h
  induction xs with
  | nil =>
    intro ys d N _ _ hd _
    cases ys with
    | nil => simp only [oldSmallF]; exact ⟨trivial, stop hd⟩
    | cons y ys => simp only [oldSmallF]; exact ⟨trivial, fun r h => by cases h⟩
  | cons x xs ih =>
    intro ys d N hx hy hd hN
    cases ys with
    | nil => simp only [oldSmallF]; exact ⟨trivial, stop hd⟩
    | cons y ys =>
      rw [List.length_cons] at hN
      have nx := hx x List.mem_cons_self
      have ny := hy y List.mem_cons_self
      obtain ⟨p1, -, p2, -⟩ := near_dist hO nx ny
      obtain ⟨q1, -, q2, -⟩ := near_dist hO ny nx
      obtain ⟨a1, a2⟩ := Far.fl hO (hd.add p2) (by omega)
      obtain ⟨b1, b2⟩ := Far.fl hO (hd.add q2) (by omega)
      have hx' := fun z hz => hx z (List.mem_cons_of_mem x hz)
      have hy' := fun z hz => hy z (List.mem_cons_of_mem y hz)
      obtain ⟨i1, j1⟩ := ih ys _ (N + 1) hx' hy' a2 (by omega)
      obtain ⟨i2, j2⟩ := ih ys _ (N + 1) hx' hy' b2 (by omega)
      simp only [oldSmallF]
      by_cases h : y ≤ x
      · rw [if_pos h, if_pos h, p1, a1]
        exact ⟨i1, fun r hr => (j1 r hr).cons⟩
      · rw [if_neg h, if_neg h]
        cases xs with
        | nil => exact ⟨rfl, stop hd⟩
        | cons x2 xs =>
          obtain ⟨r1, -⟩ := near_dist hO (hx' x2 List.mem_cons_self) ny
          simp only [q1, r1]
          split
          · rw [b1]
            exact ⟨i2, fun r hr => (j2 r hr).cons⟩
          · exact ⟨rfl, stop hd⟩

theorem oldLargeF_range (hO : IsDouble comp O) (xs : List ℚ) : ∀ (ys : List ℚ) (d : ℚ) (N : ℕ),
    (∀ x ∈ xs, Near x) → (∀ y ∈ ys, Near y) → Far N d → N + xs.length ≤ 2 ^ 53 →
    oldLargeF O d xs ys = oldLargeF (unbounded comp).toFOps d xs ys ∧
      ∀ r, oldLargeF (unbounded comp).toFOps d xs ys = .ok r → GreedyFar N xs ys r := by
  have stop : ∀ {N : ℕ} {d : ℚ} {xs ys : List ℚ}, Far N d →
      ∀ r, (Except.ok (d, xs, ys) : Except PyErr _) = .ok r → GreedyFar N xs ys r := by
    intro N d xs ys h r hr
    injection hr with hr
    rw [← hr]
    exact .refl h
  induction xs with
  | nil =>
    intro ys d N _ _ hd _
    cases ys with
    | nil => simp only [oldLargeF]; exact ⟨trivial, stop hd⟩
    | cons y ys => simp only [oldLargeF]; exact ⟨trivial, fun r h => by cases h⟩
  | cons x xs ih =>
    intro ys d N hx hy hd hN
    cases ys with
    | nil => simp only [oldLargeF]; exact ⟨trivial, stop hd⟩
    | cons y ys =>
      rw [List.length_cons] at hN
      have nx := hx x List.mem_cons_self
      have ny := hy y List.mem_cons_self
      obtain ⟨p1, -, p2, -⟩ := near_dist hO nx ny
      obtain ⟨q1, -, q2, -⟩ := near_dist hO ny nx
      obtain ⟨b1, b2⟩ := Far.fl hO (hd.add q2) (by omega)
      have hx' := fun z hz => hx z (List.mem_cons_of_mem x hz)
      have hy' := fun z hz => hy z (List.mem_cons_of_mem y hz)
      obtain ⟨i2, j2⟩ := ih ys _ (N + 1) hx' hy' b2 (by omega)
      simp only [oldLargeF]
      by_cases h : y ≥ x
      · rw [if_pos h, if_pos h, q1, b1]
        exact ⟨i2, fun r hr => (j2 r hr).cons⟩
      · rw [if_neg h, if_neg h]
        cases xs with
        | nil => exact ⟨rfl, stop hd⟩
        | cons x2 xs =>
          simp only [p1, q1]
          split
          · rw [b1]
            exact ⟨i2, fun r hr => (j2 r hr).cons⟩
          · exact ⟨rfl, stop hd⟩

/-- The dynamic programme of the hybrid, for any arithmetic. -/
theorem dpFallbackF_eq (R : FOps) (x y : List ℚ) : dpFallbackF R x y =
    .ok (if x.length > y.length then alignF R y.reverse x.reverse else alignF R x.reverse y.reverse) := by
  unfold dpFallbackF
  by_cases h : x.length > y.length
  · rw [if_pos h, if_pos h]
    exact dpRunCopyF_ok y x
  · rw [if_neg h, if_neg h]
    exact dpRunCopyF_ok x y

/-! ## Components -/

theorem near_xsOf {L : List (ℚ × Bool)} (hL : ∀ p ∈ L, Near p.1) : ∀ x ∈ xsOf L, Near x := by
  intro x hx
  unfold xsOf at hx
  obtain ⟨p, hp, rfl⟩ := List.mem_map.1 hx
  exact hL p (List.mem_filter.1 hp).1

theorem near_ysOf {L : List (ℚ × Bool)} (hL : ∀ p ∈ L, Near p.1) : ∀ x ∈ ysOf L, Near x := by
  intro x hx
  unfold ysOf at hx
  obtain ⟨p, hp, rfl⟩ := List.mem_map.1 hx
  exact hL p (List.mem_filter.1 hp).1

theorem countX_le (L : List (ℚ × Bool)) (a b : ℕ) : countX L a b ≤ L.length := by
  unfold countX
  exact (List.length_filter_le _ _).trans (by simp)

/-- The accumulated distance after `seen` of `M` points. -/
def AccFar (M seen : ℕ) (d : ℚ) : Prop := Far (seen * (M + 8)) d

theorem acc_small {M s : ℕ} (hM : M ≤ 2 ^ 20) (hs : s ≤ M) : s * (M + 8) ≤ 2 ^ 41 := by
  calc s * (M + 8) ≤ 2 ^ 20 * (2 ^ 20 + 8) := Nat.mul_le_mul (by omega) (by omega)
    _ ≤ 2 ^ 41 := by norm_num

theorem acc_step {M s l r c : ℕ} (h1 : s ≤ l) (h2 : l ≤ r) (hc : c ≤ M + 8 * (r + 1 - l)) :
    s * (M + 8) + c ≤ (r + 1) * (M + 8) := by
  obtain ⟨t, ht⟩ : ∃ t, r + 1 = s + (t + 1) := ⟨r - s, by omega⟩
  have : M + 8 * (r + 1 - l) ≤ (t + 1) * (M + 8) := by
    have h3 : r + 1 - l ≤ t + 1 := by omega
    calc M + 8 * (r + 1 - l) ≤ M + 8 * (t + 1) := by omega
      _ ≤ (t + 1) * M + 8 * (t + 1) := by
          have : 1 * M ≤ (t + 1) * M := Nat.mul_le_mul_right _ (by omega)
          omega
      _ = (t + 1) * (M + 8) := by ring
  rw [ht, Nat.add_mul]
  omega

theorem near_reverse {xs : List ℚ} (h : ∀ x ∈ xs, Near x) : ∀ x ∈ xs.reverse, Near x :=
  fun x hx => h x (List.mem_reverse.1 hx)

theorem hybridComponentF_range (hO : IsDouble comp O) {L : List (ℚ × Bool)} (hL : ∀ p ∈ L, Near p.1)
    (hM : L.length ≤ 2 ^ 20) {d : ℚ} {s l r : ℕ} (h1 : s ≤ l) (h2 : l ≤ r) (h3 : r < L.length)
    (hd : AccFar L.length s d) :
    hybridComponentF O L d s l r = hybridComponentF (unbounded comp).toFOps L d s l r ∧
      ∀ d', hybridComponentF (unbounded comp).toFOps L d s l r = .ok d' → AccFar L.length (r + 1) d' := by
  have hsm := acc_small hM (s := s) (by omega)
  have hc := countX_le L s l
  obtain ⟨a1, a2⟩ := Far.fl hO (Far.add hd (Far.nat (countX L s l))) (by omega)
  have hseg : ∀ p ∈ seg L l r, Near p.1 := fun p hp => hL p ((seg_sublist L l r).subset hp)
  have nx := near_xsOf hseg
  have ny := near_ysOf hseg
  have hlen := seg_length h2 h3
  have hd1 : (if l > s then O.fl (d + countX L s l) else d) =
      (if l > s then (unbounded comp).fl (d + countX L s l) else d) := by rw [a1]
  have hfar : Far (s * (L.length + 8) + L.length)
      (if l > s then (unbounded comp).fl (d + countX L s l) else d) := by
    split
    · exact a2.mono (by omega)
    · exact Far.mono hd (by omega)
  have hstep := acc_step (M := L.length) (c := L.length + 8 * (r + 1 - l)) h1 h2 le_rfl
  have hsm2 := acc_small hM (s := r + 1) (by omega)
  unfold hybridComponentF
  simp only [hd1, componentOf_false, componentOf_true]
  generalize (if l > s then (unbounded comp).fl (d + countX L s l) else d) = d1 at *
  generalize xsOf (seg L l r) = xs at *
  generalize ysOf (seg L l r) = ys at *
  obtain ⟨g1, g2⟩ := greedySmallF_range hO xs ys d1 _ nx ny hfar (by omega)
  rw [g1]
  generalize greedySmallF (unbounded comp).toFOps d1 xs ys = G at *
  have nx2 := near_reverse fun x hx => nx x (g2.sx hx)
  have ny2 := near_reverse fun x hx => ny x (g2.sy hx)
  obtain ⟨k1, k2⟩ := greedyLargeF_range hO G.2.1.reverse G.2.2.reverse G.1 _ nx2 ny2 g2.far
    (by have := g2.lx; rw [List.length_reverse]; omega)
  rw [k1]
  generalize greedyLargeF (unbounded comp).toFOps G.1 G.2.1.reverse G.2.2.reverse = H at *
  have lx := g2.lx
  have ly := g2.ly
  have lx2 := k2.lx
  have ly2 := k2.ly
  have hH := k2.far
  rw [List.length_reverse] at lx2 ly2 hH
  simp only [List.length_reverse]
  obtain ⟨b1, b2⟩ := Far.fl hO (hH.add (Far.nat H.2.1.length)) (by omega)
  split_ifs with q1 q2
  · rw [b1]
    refine ⟨rfl, fun d' h => ?_⟩
    injection h with h
    rw [← h]
    exact b2.mono (by omega)
  · refine ⟨rfl, fun d' h => ?_⟩
    injection h with h
    rw [← h]
    exact hH.mono (by omega)
  · have e1 := dpFallbackF_eq O H.2.1.reverse H.2.2.reverse
    have e2 := dpFallbackF_eq (unbounded comp).toFOps H.2.1.reverse H.2.2.reverse
    rw [e1, e2]
    simp only [List.length_reverse, List.reverse_reverse]
    have px : Pts (-1074) 970 H.2.1 := fun x hx => Bd.up (j := 0) (nx2 x (k2.sx hx)) (by norm_num) (by norm_num)
    have py : Pts (-1074) 970 H.2.2 := fun x hx => Bd.up (j := 0) (ny2 x (k2.sy hx)) (by norm_num) (by norm_num)
    obtain ⟨r1, r2⟩ := alignF_range hO (U := (unbounded comp).toFOps) (unbounded_fl comp) le_rfl (by norm_num) le_rfl H.2.1 H.2.2 px py (by omega)
    obtain ⟨t1, t2⟩ := alignF_range hO (U := (unbounded comp).toFOps) (unbounded_fl comp) le_rfl (by norm_num) le_rfl H.2.2 H.2.1 py px (by omega)
    rw [r1, t1]
    have hv : Far (H.2.1.length + H.2.2.length) (if H.2.1.length > H.2.2.length then
        alignF (unbounded comp).toFOps H.2.2 H.2.1 else alignF (unbounded comp).toFOps H.2.1 H.2.2) := by
      split
      · exact Far.mono t2 (by omega)
      · exact r2
    generalize (if H.2.1.length > H.2.2.length then
        alignF (unbounded comp).toFOps H.2.2 H.2.1 else alignF (unbounded comp).toFOps H.2.1 H.2.2) = v at *
    obtain ⟨c1, c2⟩ := Far.fl hO (hH.add hv) (by omega)
    change Except.ok _ = Except.ok _ ∧ ∀ d', Except.ok _ = Except.ok d' → _
    rw [c1]
    refine ⟨rfl, fun d' h => ?_⟩
    injection h with h
    rw [← h]
    exact c2.mono (by omega)

theorem oldComponentF_range (hO : IsDouble comp O) {L : List (ℚ × Bool)} (hL : ∀ p ∈ L, Near p.1)
    (hM : L.length ≤ 2 ^ 20) {d : ℚ} {s l r : ℕ} (h1 : s ≤ l) (h2 : l ≤ r) (h3 : r < L.length)
    (hd : AccFar L.length s d) :
    oldComponentF O L d s l r = oldComponentF (unbounded comp).toFOps L d s l r ∧
      ∀ d', oldComponentF (unbounded comp).toFOps L d s l r = .ok d' → AccFar L.length (r + 1) d' := by
  have hsm := acc_small hM (s := s) (by omega)
  have hgap : Far L.length ((l : ℚ) - s) := by
    rw [← Nat.cast_sub h1]
    exact (Far.nat _).mono (by omega)
  obtain ⟨a1, a2⟩ := Far.fl hO (Far.add hd hgap) (by omega)
  have hseg : ∀ p ∈ seg L l r, Near p.1 := fun p hp => hL p ((seg_sublist L l r).subset hp)
  have nx := near_xsOf hseg
  have ny := near_ysOf hseg
  have hlen := seg_length h2 h3
  have hd1 : (if l > s then O.fl (d + ((l : ℚ) - s)) else d) =
      (if l > s then (unbounded comp).fl (d + ((l : ℚ) - s)) else d) := by rw [a1]
  have hfar : Far (s * (L.length + 8) + L.length)
      (if l > s then (unbounded comp).fl (d + ((l : ℚ) - s)) else d) := by
    split
    · exact a2
    · exact Far.mono hd (by omega)
  have hstep := acc_step (M := L.length) (c := L.length + 8 * (r + 1 - l)) h1 h2 le_rfl
  have hsm2 := acc_small hM (s := r + 1) (by omega)
  unfold oldComponentF
  simp only [hd1, sliceOf_false, sliceOf_true]
  generalize (if l > s then (unbounded comp).fl (d + ((l : ℚ) - s)) else d) = d1 at *
  generalize xsOf (seg L l r) = xs at *
  generalize ysOf (seg L l r) = ys at *
  obtain ⟨g1, g2⟩ := oldSmallF_range hO xs ys d1 _ nx ny hfar (by omega)
  rw [g1]
  cases eG : oldSmallF (unbounded comp).toFOps d1 xs ys with
  | error _ => exact ⟨rfl, fun d' h => by cases h⟩
  | ok G =>
    have g2 := g2 G eG
    have nx2 := near_reverse fun x hx => nx x (g2.sx hx)
    have ny2 := near_reverse fun x hx => ny x (g2.sy hx)
    obtain ⟨k1, k2⟩ := oldLargeF_range hO G.2.1.reverse G.2.2.reverse G.1 _ nx2 ny2 g2.far
      (by have := g2.lx; rw [List.length_reverse]; omega)
    simp only [bind, Except.bind]
    rw [k1]
    cases eH : oldLargeF (unbounded comp).toFOps G.1 G.2.1.reverse G.2.2.reverse with
    | error _ => exact ⟨rfl, fun d' h => by cases h⟩
    | ok H =>
      have k2 := k2 H eH
      have lx := g2.lx
      have ly := g2.ly
      have lx2 := k2.lx
      have ly2 := k2.ly
      have hH := k2.far
      rw [List.length_reverse] at lx2 ly2 hH
      have cx : ∀ x ∈ H.2.1.reverse, Near x := near_reverse fun x hx => nx2 x (k2.sx hx)
      have cy : ∀ x ∈ H.2.2.reverse, Near x := near_reverse fun x hx => ny2 x (k2.sy hx)
      have ex : H.2.1.reverse.length = H.2.1.length := List.length_reverse
      have ey : H.2.2.reverse.length = H.2.2.length := List.length_reverse
      simp only
      generalize H.2.1.reverse = X at *
      generalize H.2.2.reverse = Y at *
      match Y, cy, ey with
      | [], _, ey =>
        obtain ⟨b1, b2⟩ := Far.fl hO (hH.add (Far.nat X.length)) (by omega)
        simp only [b1]
        refine ⟨trivial, fun d' h => ?_⟩
        injection h with h
        rw [← h]
        exact b2.mono (by omega)
      | [y], cy, ey =>
        rw [List.length_singleton] at ey
        obtain ⟨b1, b2⟩ := singleCostF_range hO cx (cy y List.mem_cons_self) (by omega)
        simp only [b1]
        cases ev : singleCostF (unbounded comp).toFOps X y with
        | error _ => exact ⟨rfl, fun d' h => by cases h⟩
        | ok v =>
          obtain ⟨c1, c2⟩ := Far.fl hO (hH.add (b2 v ev)) (by omega)
          simp only [c1]
          refine ⟨trivial, fun d' h => ?_⟩
          injection h with h
          rw [← h]
          exact c2.mono (by omega)
      | y :: y' :: Y, cy, ey =>
        obtain ⟨b1, b2⟩ := comboCostsF_range hO cx cy (by omega)
        simp only [b1]
        cases em : pyMin (comboCostsF (unbounded comp).toFOps X (y :: y' :: Y)) with
        | error _ => exact ⟨rfl, fun d' h => by cases h⟩
        | ok m =>
          generalize y :: y' :: Y = Z at *
          obtain ⟨c1, c2⟩ := Far.fl hO ((b2 m (pyMin_mem em)).add (Far.nat X.length)) (by omega)
          obtain ⟨e1, e2⟩ := Far.fl hO (c2.sub (Far.nat Z.length)) (by omega)
          obtain ⟨f1, f2⟩ := Far.fl hO (hH.add e2) (by omega)
          simp only [c1, e1, f1]
          refine ⟨trivial, fun d' h => ?_⟩
          injection h with h
          rw [← h]
          exact f2.mono (by omega)

/-! ## The loop over components -/

theorem mergeLoop_congr {c1 c2 : ℚ → ℕ → ℕ → ℕ → Except PyErr ℚ} {P : ℕ → ℚ → Prop} {n : ℕ}
    (hc : ∀ d s l r, s ≤ l → l ≤ r → r < n → P s d →
      c1 d s l r = c2 d s l r ∧ ∀ d', c2 d s l r = .ok d' → P (r + 1) d') :
    ∀ (rest : List (ℕ × ℕ)) (d : ℚ) (s l r : ℕ), s ≤ l → l ≤ r → r < n → P s d →
      (∀ p ∈ rest, p.1 ≤ p.2 ∧ p.2 < n) →
      mergeLoop c1 d s l r rest = mergeLoop c2 d s l r rest ∧
        ∀ q, mergeLoop c2 d s l r rest = .ok q → P q.2 q.1 ∧ q.2 ≤ n := by
  intro rest
  induction rest with
  | nil =>
    intro d s l r h1 h2 h3 hP _
    obtain ⟨a, b⟩ := hc d s l r h1 h2 h3 hP
    simp only [mergeLoop, a]
    refine ⟨trivial, fun q hq => ?_⟩
    cases hd : c2 d s l r with
    | error _ => rw [hd] at hq; cases hq
    | ok d' =>
      rw [hd] at hq
      injection hq with hq
      rw [← hq]
      exact ⟨b d' hd, h3⟩
  | cons p rest ih =>
    obtain ⟨l', r'⟩ := p
    intro d s l r h1 h2 h3 hP hr
    have hp := hr (l', r') List.mem_cons_self
    have hr' := fun p hp => hr p (List.mem_cons_of_mem _ hp)
    simp only at hp
    simp only [mergeLoop]
    split
    · exact ih d s l (max r r') h1 (by omega) (by omega) hP hr'
    · obtain ⟨a, b⟩ := hc d s l r h1 h2 h3 hP
      rw [a]
      cases hd : c2 d s l r with
      | error _ => exact ⟨rfl, fun q hq => by cases hq⟩
      | ok d' => exact ih d' (r + 1) l' r' (by omega) hp.1 hp.2 (b d' hd) hr'

theorem processRanges_congr {c1 c2 : ℚ → ℕ → ℕ → ℕ → Except PyErr ℚ} {P : ℕ → ℚ → Prop} {n : ℕ}
    (hc : ∀ d s l r, s ≤ l → l ≤ r → r < n → P s d →
      c1 d s l r = c2 d s l r ∧ ∀ d', c2 d s l r = .ok d' → P (r + 1) d')
    (h0 : P 0 0) {Q : List (ℕ × ℕ)} (hQ : ∀ p ∈ Q, p.1 ≤ p.2 ∧ p.2 < n) :
    processRanges c1 Q = processRanges c2 Q ∧
      ∀ q, processRanges c2 Q = .ok q → P q.2 q.1 ∧ q.2 ≤ n := by
  have hperm := List.perm_insertionSort rangeLe Q
  unfold processRanges
  cases hS : Q.insertionSort rangeLe with
  | nil =>
    refine ⟨rfl, fun q hq => ?_⟩
    injection hq with hq
    rw [← hq]
    exact ⟨h0, Nat.zero_le _⟩
  | cons p rest =>
    obtain ⟨l, r⟩ := p
    rw [hS] at hperm
    have hm := fun p hp => hQ p (hperm.mem_iff.1 hp)
    have hp := hm (l, r) List.mem_cons_self
    exact mergeLoop_congr hc rest 0 0 l r (by omega) hp.1 hp.2 h0
      fun p hp => hm p (List.mem_cons_of_mem _ hp)

theorem near_locations {xs ys : List ℚ} (hx : ∀ x ∈ xs, Near x) (hy : ∀ y ∈ ys, Near y) :
    ∀ p ∈ locations xs ys, Near p.1 := by
  intro p hp
  have := (locations_perm xs ys).mem_iff.1 hp
  rcases List.mem_append.1 this with h | h
  · obtain ⟨x, h1, rfl⟩ := List.mem_map.1 h; exact hx x h1
  · obtain ⟨x, h1, rfl⟩ := List.mem_map.1 h; exact hy x h1

theorem hybridMainF_range (hO : IsDouble comp O) {xs ys : List ℚ} (hx : ∀ x ∈ xs, Near x)
    (hy : ∀ y ∈ ys, Near y) (hl : xs.length + ys.length ≤ 2 ^ 20) :
    hybridMainF O xs ys = hybridMainF (unbounded comp).toFOps xs ys := by
  have hlen : (locations xs ys).length = xs.length + ys.length := by
    rw [(locations_perm xs ys).length_eq]; simp
  have hL := near_locations hx hy
  unfold hybridMainF
  simp only
  generalize locations xs ys = L at *
  obtain ⟨Q, eQ, hQ⟩ := componentRanges_ok L
  obtain ⟨h1, h2⟩ := processRanges_congr (P := AccFar L.length) (n := L.length)
    (fun d s l r a b c e => hybridComponentF_range hO hL (by omega) a b c e) Bd.zero hQ.rng
  rw [eQ]
  simp only [bind, Except.bind, h1]
  cases hq : processRanges (hybridComponentF (unbounded comp).toFOps L) Q with
  | error _ => rfl
  | ok q =>
    obtain ⟨a, b⟩ := h2 q hq
    have hsm := acc_small (M := L.length) (by omega) b
    have := countX_le L q.2 L.length
    obtain ⟨c, -⟩ := Far.fl hO (Far.add a (Far.nat (countX L q.2 L.length))) (by omega)
    simp only [c]

theorem oldMainF_range (hO : IsDouble comp O) {xs ys : List ℚ} (hx : ∀ x ∈ xs, Near x)
    (hy : ∀ y ∈ ys, Near y) (hl : xs.length + ys.length ≤ 2 ^ 20) :
    oldMainF O xs ys = oldMainF (unbounded comp).toFOps xs ys := by
  have hlen : (locations xs ys).length = xs.length + ys.length := by
    rw [(locations_perm xs ys).length_eq]; simp
  have hL := near_locations hx hy
  unfold oldMainF
  simp only
  generalize locations xs ys = L at *
  obtain ⟨Q, eQ, hQ⟩ := componentRanges_ok L
  obtain ⟨h1, h2⟩ := processRanges_congr (P := AccFar L.length) (n := L.length)
    (fun d s l r a b c e => oldComponentF_range hO hL (by omega) a b c e) Bd.zero hQ.rng
  rw [eQ]
  simp only [bind, Except.bind, h1]
  cases hq : processRanges (oldComponentF (unbounded comp).toFOps L) Q with
  | error _ => rfl
  | ok q =>
    obtain ⟨a, b⟩ := h2 q hq
    have hsm := acc_small (M := L.length) (by omega) b
    have hg : Far L.length ((L.length : ℚ) - q.2) := by
      rw [← Nat.cast_sub b]
      exact (Far.nat _).mono (by omega)
    obtain ⟨c, -⟩ := Far.fl hO (Far.add a hg) (by omega)
    simp only [c]

/-! ## The whole functions -/

theorem near_sorted {xs : List ℚ} (h : ∀ x ∈ xs, Near x) : ∀ x ∈ pySorted xs, Near x :=
  fun x hx => h x ((pySorted_perm xs).mem_iff.1 hx)

theorem emdShellF_range (hO : IsDouble comp O) {m1 m2 : List ℚ → List ℚ → Except PyErr ℚ}
    (hm : ∀ xs ys, (∀ x ∈ xs, Near x) → (∀ y ∈ ys, Near y) → xs.length + ys.length ≤ 2 ^ 20 →
      m1 xs ys = m2 xs ys) {xs ys : List ℚ} (hx : ∀ x ∈ xs, Near x)
    (hy : ∀ y ∈ ys, Near y) (hl : xs.length + ys.length ≤ 2 ^ 20) :
    emdShellF O m1 xs ys = emdShellF (unbounded comp).toFOps m2 xs ys := by
  unfold emdShellF
  have hsw : ∃ X Y, (if xs.length < ys.length then (ys, xs) else (xs, ys)) = (X, Y) ∧
      (∀ x ∈ X, Near x) ∧ (∀ y ∈ Y, Near y) ∧ X.length + Y.length ≤ 2 ^ 20 := by
    split
    · exact ⟨_, _, rfl, hy, hx, by omega⟩
    · exact ⟨_, _, rfl, hx, hy, hl⟩
  obtain ⟨X, Y, e, hX, hY, hXY⟩ := hsw
  rw [e]
  have fx : ∀ Z : List ℚ, Z.length ≤ 2 ^ 20 → O.fl (Z.length : ℚ) = (unbounded comp).fl (Z.length : ℚ) :=
    fun Z hZ => (Far.fl hO (Far.nat Z.length) (by omega)).1
  match Y, hY, hXY with
  | [], _, hXY => simp only [fx X (by omega)]
  | [y], hY, hXY => exact (singleCostF_range hO hX (hY y List.mem_cons_self) (by omega)).1
  | y :: y' :: Y, hY, hXY =>
    simp only
    generalize y :: y' :: Y = Z at *
    have pX := (pySorted_perm X).length_eq
    have pZ := (pySorted_perm Z).length_eq
    have nX := near_sorted hX
    have nZ := near_sorted hY
    generalize pySorted X = X at *
    generalize pySorted Z = Z at *
    split
    · rw [(zipCostF_range hO (near_reverse nX) (near_reverse nZ) (by rw [List.length_reverse]; omega)).1]
    · obtain ⟨C, -, -, s1, s2⟩ := removeCommon_perm X Z
      have l1 := s1.length_le
      have l2 := s2.length_le
      have n1 := fun x hx => nX x (s1.subset hx)
      have n2 := fun x hx => nZ x (s2.subset hx)
      generalize (removeCommon X Z).1 = A at *
      generalize (removeCommon X Z).2 = B at *
      match B, n2, l2 with
      | [], _, _ => simp only [fx A (by omega)]
      | [y], n2, _ => exact (singleCostF_range hO n1 (n2 y List.mem_cons_self) (by omega)).1
      | y :: y' :: B, n2, l2 => exact hm A _ n1 n2 (by omega)

theorem emdSlowF_range (hO : IsDouble comp O) {xs ys : List ℚ} (hx : ∀ x ∈ xs, Near x)
    (hy : ∀ y ∈ ys, Near y) (hl : xs.length + ys.length ≤ 2 ^ 20) :
    emdSlowF O xs ys = emdSlowF (unbounded comp).toFOps xs ys := by
  unfold emdSlowF
  have hsw : ∃ X Y, (if xs.length < ys.length then (ys, xs) else (xs, ys)) = (X, Y) ∧
      (∀ x ∈ X, Near x) ∧ (∀ y ∈ Y, Near y) ∧ X.length + Y.length ≤ 2 ^ 20 := by
    split
    · exact ⟨_, _, rfl, hy, hx, by omega⟩
    · exact ⟨_, _, rfl, hx, hy, hl⟩
  obtain ⟨X, Y, e, hX, hY, hXY⟩ := hsw
  rw [e]
  simp only
  have pX := (pySorted_perm X).length_eq
  have pY := (pySorted_perm Y).length_eq
  have nX := near_sorted hX
  have nY := near_sorted hY
  generalize pySorted X = X at *
  generalize pySorted Y = Y at *
  obtain ⟨a, b⟩ := comboCostsF_range hO nX nY (by omega)
  rw [a]
  cases em : pyMin (comboCostsF (unbounded comp).toFOps X Y) with
  | error _ => rfl
  | ok m =>
    obtain ⟨c, -⟩ := Far.fl hO (((Far.nat X.length).sub (Far.nat Y.length)).add (b m (pyMin_mem em))) (by omega)
    simp only [bind, Except.bind, c]

end Fp
end Verif
