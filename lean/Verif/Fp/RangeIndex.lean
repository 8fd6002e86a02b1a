import Verif.Fp.RangeSim

/-!
# Word lists within the range of exponents
-/

namespace Verif
namespace Fp

open GramSpec IndexSpec

variable {comp : Bool} {O U : FOps} {cf : List Char → List Char}

/-! ## Sums -/

theorem Bd.scale {e : ℤ} {k N : ℕ} {x : ℚ} (h : Bd e 0 N x) (hN : N ≤ 2 ^ k) : Bd e k 1 x := by
  refine ⟨h.grid, h.le.trans ?_⟩
  rw [pow_zero, mul_one, Nat.cast_one, one_mul]
  exact_mod_cast hN

theorem compStep_range (hO : IsDouble comp O) {e : ℤ} {k S C : ℕ} (he : -1074 ≤ e)
    (hk : k ≤ 970) {s c x : ℚ} (hs : Bd e k S s) (hc : Bd e k C c) (hx : Bd e k 1 x)
    (hS : S + C + 2 * S + 2 ≤ 2 ^ 53) :
    compStep O.fl (s, c) x = compStep rne (s, c) x ∧ Bd e k (S + 1) (compStep rne (s, c) x).1 ∧
      Bd e k (C + (2 * S + 2)) (compStep rne (s, c) x).2 := by
  have t0 := hs.add hx
  have t1 := t0.rne (by omega)
  have ft := hO.fl_eq he hk (by omega) t0
  have a0 := hs.sub t1
  have fa := hO.fl_eq he hk (by omega) a0
  have a1 := (a0.rne (by omega)).add hx
  have fa1 := hO.fl_eq he hk (by omega) a1
  have b0 := hx.sub t1
  have fb := hO.fl_eq he hk (by omega) b0
  have b1 := (b0.rne (by omega)).add hs
  have fb1 := hO.fl_eq he hk (by omega) b1
  have ce : Bd e k (2 * S + 2) (if |x| ≤ |s| then rne (rne (s - rne (s + x)) + x)
      else rne (rne (x - rne (s + x)) + s)) := by
    split
    · exact (a1.rne (by omega)).mono (by omega)
    · exact (b1.rne (by omega)).mono (by omega)
  have c0 := hc.add ce
  have fc := hO.fl_eq he hk (by omega) c0
  unfold compStep
  simp only [ft, fa, fa1, fb, fb1, fc]
  exact ⟨trivial, t1, c0.rne (by omega)⟩

theorem compFold_range (hO : IsDouble comp O) {e : ℤ} {k m : ℕ} (he : -1074 ≤ e) (hk : k ≤ 970)
    (v : List ℚ) (hv : ∀ x ∈ v, Bd e k 1 x) {s : ℚ × ℚ} {S j : ℕ} (hs : Bd e k S s.1)
    (hc : Bd e k (j * (2 * m + 2)) s.2) (h1 : S + v.length ≤ m) (h2 : j + v.length ≤ m)
    (hm : m ≤ 2 ^ 20) :
    v.foldl (compStep O.fl) s = v.foldl (compStep rne) s ∧
      Bd e k m (v.foldl (compStep rne) s).1 ∧
      Bd e k (m * (2 * m + 2)) (v.foldl (compStep rne) s).2 := by
  have hmm : m * (2 * m + 2) ≤ 2 ^ 42 := by
    calc m * (2 * m + 2) ≤ 2 ^ 20 * (2 * 2 ^ 20 + 2) := Nat.mul_le_mul hm (by omega)
      _ ≤ 2 ^ 42 := by norm_num
  induction v generalizing s S j with
  | nil =>
    rw [List.length_nil] at h1 h2
    exact ⟨rfl, hs.mono (by omega), hc.mono (Nat.mul_le_mul_right _ (by omega))⟩
  | cons x v ih =>
    rw [List.length_cons] at h1 h2
    have hj : j * (2 * m + 2) ≤ 2 ^ 42 := (Nat.mul_le_mul_right _ (by omega)).trans hmm
    obtain ⟨a, b, c⟩ := compStep_range hO (s := s.1) (c := s.2) he hk hs hc (hv x List.mem_cons_self)
      (by omega)
    rw [List.foldl_cons, List.foldl_cons, a]
    refine ih (fun y hy => hv y (List.mem_cons_of_mem _ hy)) (S := S + 1) (j := j + 1) b
      (c.mono ?_) (by omega) (by omega)
    rw [Nat.add_mul, Nat.one_mul]
    omega

theorem sum_range (hO : IsDouble comp O) {e : ℤ} {k : ℕ} (he : -1074 ≤ e) (hk : k ≤ 970)
    (v : List ℚ) (hv : ∀ x ∈ v, Bd e k 1 x) (hl : v.length ≤ 2 ^ 20) :
    O.sum v = (unbounded comp).sum v ∧ Bd e k (2 ^ 53) ((unbounded comp).sum v) := by
  rw [hO.sum, unbounded_sum]
  cases comp with
  | false =>
    simp only [Bool.false_eq_true, if_false]
    have h := foldl_range (e := e) (k := k) (M := 2 ^ 53) (f := fun s x => O.fl (s + x))
      (g := fun s x => rne (s + x)) (fun _ => 1) v (by
        intro a ha s c hs hc
        have b := hs.add (hv a ha)
        exact ⟨hO.fl_eq he hk hc b, b.rne hc⟩) (s := 0) (c := 0) Bd.zero (by simp; omega)
    exact ⟨h.1, h.2.mono (by simp; omega)⟩
  | true =>
    simp only [if_true]
    cases v with
    | nil => exact ⟨rfl, Bd.zero⟩
    | cons x v =>
      rw [List.length_cons] at hl
      obtain ⟨a, b, c⟩ := compFold_range hO he hk (m := v.length + 1) v
        (fun y hy => hv y (List.mem_cons_of_mem _ hy)) (s := (x, 0)) (S := 1) (j := 0)
        (hv x List.mem_cons_self) Bd.zero (by omega) (by omega) hl
      have hmm : (v.length + 1) * (2 * (v.length + 1) + 2) ≤ 2 ^ 42 := by
        calc (v.length + 1) * (2 * (v.length + 1) + 2) ≤ 2 ^ 20 * (2 * 2 ^ 20 + 2) :=
              Nat.mul_le_mul hl (by omega)
          _ ≤ 2 ^ 42 := by norm_num
      have d := b.add c
      have fd := hO.fl_eq he hk (by omega) d
      unfold compSum
      simp only [a, fd]
      refine ⟨trivial, ?_⟩
      split
      · exact b.mono (by omega)
      · exact (d.rne (by omega)).mono (by omega)

/-- The mean is computed as without bounds on the exponent. -/
theorem mean1F_range (hO : IsDouble comp O) {e : ℤ} {k : ℕ} (he : -900 ≤ e) (hk : k ≤ 970)
    (v : List ℚ) (hv : ∀ x ∈ v, Bd e k 1 x) (hl : v.length ≤ 2 ^ 20) :
    mean1F O v = mean1F (unbounded comp) v := by
  obtain ⟨h1, h2⟩ := sum_range hO (by omega) hk v hv hl
  unfold mean1F sumF
  rw [h1, unbounded_fl]
  have := (hO.quot_eq he hk le_rfl h2 (d := v.length)
    (by rw [abs_of_nonneg (by omega)]; omega)).1
  rw [Int.cast_natCast] at this
  exact this

/-! ## Scores -/

theorem count_sum_le {L : List (List Char)} (hL : L.Nodup) (gs : List (List Char)) :
    (L.map fun g => gs.count g).sum ≤ gs.length := by
  induction gs with
  | nil => simp
  | cons a gs ih =>
    have h1 : (L.map fun g => (a :: gs).count g).sum =
        (L.map fun g => gs.count g).sum + (L.map fun g => if g = a then 1 else 0).sum := by
      rw [← List.sum_map_add]
      congr 1
      apply List.map_congr_left
      intro g _
      rw [List.count_cons]
      congr 1
      by_cases h : a = g
      · simp [h]
      · simp [h, Ne.symm h]
    have h2 : (L.map fun g => if g = a then 1 else 0).sum ≤ 1 := by
      have : (L.map fun g => if g = a then 1 else 0).sum = L.count a := by
        clear h1 ih hL
        induction L with
        | nil => rfl
        | cons b L ih =>
          rw [List.map_cons, List.sum_cons, ih, List.count_cons, Nat.add_comm]
          congr 1
          by_cases h : b = a <;> simp [h]
      rw [this]
      exact List.nodup_iff_count_le_one.1 hL a
    rw [h1, List.length_cons]
    omega

theorem sharedGrams_nodup (n : ℤ) (q w : List Char) : (sharedGrams n q w).Nodup :=
  (nodup_firsts _).filter _

theorem of_mem_sharedGrams {n : ℤ} {q w g : List Char} (h : g ∈ sharedGrams n q w) :
    g ∈ gramsOf n q ∧ g ∈ gramsOf n w := by
  unfold sharedGrams at h
  rw [List.mem_filter, mem_firsts, decide_eq_true_eq] at h
  exact h

theorem gramsOf_len_le (n : ℤ) (w : List Char) : (gramsOf n w).length ≤ w.length + 1 := by
  rw [length_gramsOf]
  unfold numGrams
  split <;> omega

theorem fracs_posOf {gs : List (List Char)} (h : gs.length ≤ 2 ^ 53) (g : List Char) :
    Fracs (posOf gs g) := by
  intro x hx
  unfold posOf at hx
  obtain ⟨p, hp, rfl⟩ := List.mem_map.1 hx
  have := List.mem_zipIdx (x := p.1) (i := p.2) (List.mem_of_mem_filter hp)
  exact frac_relPos (by omega) h

theorem posOf_len (gs : List (List Char)) (g : List Char) : (posOf gs g).length = gs.count g := by
  rw [posOf_eq, length_locs_locatedOf]

variable {q w : List Char}

theorem simNF_range (hO : IsDouble comp O) (hU : U.fl = rne) (n : ℤ) (hq : q.length ≤ 2 ^ 48)
    (hw : w.length ≤ 2 ^ 48) :
    simNF O n q w = simNF U n q w ∧ Bd (-106) 0 (2 ^ 51) (simNF U n q w) := by
  have lq := gramsOf_len_le n q
  have lw := gramsOf_len_le n w
  have wt : ((sharedGrams n q w).map fun g =>
      2 * ((gramsOf n q).count g + (gramsOf n w).count g)).sum ≤ 2 ^ 51 := by
    rw [List.sum_map_mul_left, List.sum_map_add]
    have h1 := count_sum_le (sharedGrams_nodup n q w) (gramsOf n q)
    have h2 := count_sum_le (sharedGrams_nodup n q w) (gramsOf n w)
    omega
  have h := foldl_range (e := -106) (k := 0) (M := 2 ^ 53)
    (f := fun s g => O.fl (O.fl (s + (((gramsOf n q).count g : ℚ) + (gramsOf n w).count g)) -
      emdF O ((posOf (gramsOf n q) g).map O.fl) ((posOf (gramsOf n w) g).map O.fl)))
    (g := fun s g => U.fl (U.fl (s + (((gramsOf n q).count g : ℚ) + (gramsOf n w).count g)) -
      emdF U ((posOf (gramsOf n q) g).map U.fl) ((posOf (gramsOf n w) g).map U.fl)))
    (fun g => 2 * ((gramsOf n q).count g + (gramsOf n w).count g)) (sharedGrams n q w) (by
      intro g _ s c hs hc
      have := step_range hO hU (fracs_posOf (gs := gramsOf n q) (by omega) g)
        (fracs_posOf (gs := gramsOf n w) (by omega) g) hs (by rw [posOf_len, posOf_len]; exact hc)
      simpa only [posOf_len] using this) (s := 0) (c := 0) Bd.zero (by omega)
  exact ⟨h.1, h.2.mono (by omega)⟩

theorem denom_le (n : ℤ) (hq : q.length ≤ 2 ^ 48) (hw : w.length ≤ 2 ^ 48) (h : 0 < denom n q w) :
    |denom n q w| ≤ 2 ^ 53 := by
  rw [abs_of_pos h]
  unfold denom
  split <;> omega

theorem scoreNF_range (hO : IsDouble comp O) (hU : U.fl = rne) (normalize : Bool) (n : ℤ)
    (hq : q.length ≤ 2 ^ 48) (hw : w.length ≤ 2 ^ 48) :
    scoreNF O normalize n q w = scoreNF U normalize n q w ∧
      Bd (-212) 0 (2 ^ 51) (scoreNF U normalize n q w) := by
  obtain ⟨h1, h2⟩ := simNF_range hO hU n hq hw
  unfold scoreNF
  cases normalize with
  | false => exact ⟨h1, h2.grid_mono (by norm_num)⟩
  | true =>
    simp only [if_true, h1]
    by_cases hs : sharedGrams n q w = []
    · have h0 : simNF U n q w = 0 := by unfold simNF; rw [hs]; rfl
      rw [h0, zero_div, O.zero, U.zero]
      exact ⟨rfl, Bd.zero⟩
    · obtain ⟨g, hg⟩ := List.exists_mem_of_ne_nil _ hs
      have hd := denom_pos_of_shares (n := n) (q := q) (w := w) ⟨g, of_mem_sharedGrams hg⟩
      obtain ⟨h3, h4⟩ := hO.quot_eq (by norm_num) (by norm_num) (by norm_num) h2
        (denom_le n hq hw hd)
      rw [hU]
      exact ⟨h3, h4⟩

theorem lowerNF_range (hO : IsDouble comp O) (hU : U.fl = rne) (normalize : Bool) (n : ℤ)
    (hq : q.length ≤ 2 ^ 48) (hw : w.length ≤ 2 ^ 48) :
    lowerNF O normalize n q w = lowerNF U normalize n q w ∧
      Bd (-212) 0 (2 ^ 51) (lowerNF U normalize n q w) := by
  have lq := gramsOf_len_le n q
  unfold lowerNF
  cases normalize with
  | false =>
    refine ⟨rfl, ?_⟩
    simp only [Bool.false_eq_true, if_false]
    have hc : commonN n q w = ((sharedGrams n q w).map fun g =>
        min ((gramsOf n q).count g) ((gramsOf n w).count g)).sum := by
      unfold commonN
      rw [Nat.cast_list_sum, List.map_map]
      symm
      apply sum_keys_eq (sharedGrams_nodup n q w)
      intro g
      unfold sharedGrams
      simp only [List.mem_filter, mem_firsts, decide_eq_true_eq, Finset.mem_inter, List.mem_toFinset]
    rw [hc]
    refine (Bd.nat (by norm_num) _).mono ?_
    refine (List.sum_le_sum (g := fun g => (gramsOf n q).count g) fun g _ => min_le_left _ _).trans ?_
    have h1 := count_sum_le (sharedGrams_nodup n q w) (gramsOf n q)
    omega
  | true =>
    simp only [if_true]
    have wt := count_sum_le (sharedGrams_nodup n q w) (gramsOf n q)
    have h := foldl_range (e := -212) (k := 0) (M := 2 ^ 53)
      (f := fun s g => O.fl (s + O.fl (((min ((gramsOf n q).count g) ((gramsOf n w).count g) : ℕ) : ℚ) /
        denom n q w)))
      (g := fun s g => U.fl (s + U.fl (((min ((gramsOf n q).count g) ((gramsOf n w).count g) : ℕ) : ℚ) /
        denom n q w)))
      (fun g => (gramsOf n q).count g) (sharedGrams n q w) (by
        intro g hg s c hs hc
        have hd := denom_pos_of_shares (n := n) (q := q) (w := w) ⟨g, of_mem_sharedGrams hg⟩
        have hb : Bd 0 0 ((gramsOf n q).count g)
            ((min ((gramsOf n q).count g) ((gramsOf n w).count g) : ℕ) : ℚ) :=
          (Bd.nat le_rfl _).mono (min_le_left _ _)
        obtain ⟨h3, h4⟩ := hO.quot_eq (by norm_num) (by norm_num) (by omega) hb
          (denom_le n hq hw hd)
        have h5 := hs.add (h4.grid_mono (by norm_num))
        have h6 := hO.fl_eq (by norm_num) (by norm_num) hc h5
        rw [hU, h3, h6]
        exact ⟨rfl, h5.rne hc⟩) (s := 0) (c := 0) Bd.zero (by omega)
    exact ⟨h.1, h.2.mono (by omega)⟩

/-- A list of numbers within the bounds of the scores. -/
def Scores (v : List ℚ) : Prop := ∀ x ∈ v, Bd (-212) 0 (2 ^ 52) x

theorem scoreVecF_range (hO : IsDouble comp O) (hU : U.fl = rne) (ns : List ℤ) (normalize : Bool)
    (hq : q.length ≤ 2 ^ 48) (hw : w.length ≤ 2 ^ 48) :
    scoreVecF O ns normalize q w = scoreVecF U ns normalize q w ∧
      Scores (scoreVecF U ns normalize q w) := by
  unfold scoreVecF
  refine ⟨List.map_congr_left fun n _ => (scoreNF_range hO hU normalize n hq hw).1, ?_⟩
  intro x hx
  obtain ⟨n, _, rfl⟩ := List.mem_map.1 hx
  exact (scoreNF_range hO hU normalize n hq hw).2.mono (by norm_num)

theorem lowerVecF_range (hO : IsDouble comp O) (hU : U.fl = rne) (ns : List ℤ) (normalize : Bool)
    (hq : q.length ≤ 2 ^ 48) (hw : w.length ≤ 2 ^ 48) :
    lowerVecF O ns normalize q w = lowerVecF U ns normalize q w ∧
      Scores (lowerVecF U ns normalize q w) ∧
      (lowerVecF U ns normalize q w).map (fun x => O.fl (x * 2)) =
        (lowerVecF U ns normalize q w).map (fun x => U.fl (x * 2)) ∧
      Scores ((lowerVecF U ns normalize q w).map (fun x => U.fl (x * 2))) := by
  have key : ∀ x ∈ lowerVecF U ns normalize q w, Bd (-212) 0 (2 ^ 51) x := by
    intro x hx
    obtain ⟨n, _, rfl⟩ := List.mem_map.1 hx
    exact (lowerNF_range hO hU normalize n hq hw).2
  refine ⟨List.map_congr_left fun n _ => (lowerNF_range hO hU normalize n hq hw).1,
    fun x hx => (key x hx).mono (by norm_num), List.map_congr_left fun x hx => ?_, ?_⟩
  · rw [hU]
    exact hO.fl_eq (by norm_num) (by norm_num) (by norm_num) (key x hx).double
  · intro y hy
    obtain ⟨x, hx, rfl⟩ := List.mem_map.1 hy
    rw [hU]
    exact ((key x hx).double.rne (by norm_num)).mono (by norm_num)

theorem Scores.mean {v : List ℚ} (hO : IsDouble comp O) (h : Scores v) (hl : v.length ≤ 2 ^ 20) :
    mean1F O v = mean1F (unbounded comp) v :=
  mean1F_range hO (e := -212) (k := 53) (by norm_num) (by norm_num) v
    (fun x hx => (h x hx).scale (by norm_num)) hl

end Fp
end Verif
