import Verif.Fp.V3Lemmas

/-!
# The range of the scores that `ApproxWordListV3` computes with floats
-/

namespace Verif
namespace Fp

open GramSpec IndexSpec

variable {R : Rounding}

/-- Number of n-grams of the query and the word. -/
def total3 (n : ℤ) (q w : List Char) : ℕ := (grams n.toNat q).length + (gramsOf n w).length

theorem counts_le_total3 (n : ℤ) (q w g : List Char) :
    (grams n.toNat q).count g + (gramsOf n w).count g ≤ total3 n q w := by
  have h1 := List.count_le_length (a := g) (l := grams n.toNat q)
  have h2 := List.count_le_length (a := g) (l := gramsOf n w)
  unfold total3
  omega

theorem total3_le {n : ℤ} (hn : 0 < n) (q w : List Char) :
    total3 n q w ≤ q.length + w.length + 4 := by
  unfold total3 gramsOf
  split
  · rw [grams, grams, List.length_map, List.length_map, List.length_range, List.length_range,
      count_eq, count_eq]
    omega
  · rw [grams, List.length_map, List.length_map, List.length_range, count_eq]
    omega

/-- One n-gram contributes at least 0 and at most the smaller number of its occurrences. -/
theorem part3F_bounds {n : ℤ} {q w g : List Char} (hT : total3 n q w ≤ 2 ^ 53) :
    0 ≤ part3F R n q w g ∧
    part3F R n q w g ≤ ((min ((grams n.toNat q).count g) ((gramsOf n w).count g) : ℕ) : ℚ) := by
  have hc := (counts_le_total3 n q w g).trans hT
  unfold part3F
  set a := (posOf (grams n.toNat q) g).map R.fl with ha
  set b := (posOf (gramsOf n w) g).map R.fl with hb
  have la : a.length = (grams n.toNat q).count g := by rw [ha, List.length_map, length_posOf]
  have lb : b.length = (gramsOf n w).count g := by rw [hb, List.length_map, length_posOf]
  have hsp : EmdSpec.Spread1 a b := spread1_map (unit01_posOf _ _) (unit01_posOf _ _)
  have h1 := emdF_le_max (R := R) (by omega) hsp
  have h2 := sub_le_emdF (R := R) a b (by omega)
  have h3 := sub_le_emdF (R := R) b a (by omega)
  rw [emdF_comm] at h3
  rw [la, lb] at h1 h2 h3
  generalize (grams n.toNat q).count g = x at *
  generalize (gramsOf n w).count g = y at *
  rw [R.nat _ (by omega)]
  push_cast at h1 h2 h3 ⊢
  refine ⟨fl_nonneg (by linarith), ?_⟩
  have := fl_le_nat (R := R) (x := max (x : ℚ) y - emdF R a b) (n := min x y) (by omega) (by
    push_cast
    rcases le_total (x : ℚ) y with h | h
    · rw [min_eq_left h, max_eq_right h]; linarith
    · rw [min_eq_right h, max_eq_left h]; linarith)
  push_cast at this
  exact this

theorem part3F_self {n : ℤ} (hn : 1 < n) {q g : List Char} (hT : total3 n q q ≤ 2 ^ 53) :
    part3F R n q q g = ((grams n.toNat q).count g : ℚ) := by
  have hg : gramsOf n q = grams n.toNat q := by unfold gramsOf; rw [if_pos hn]
  have hc := (counts_le_total3 n q q g).trans hT
  unfold part3F
  rw [hg] at hc ⊢
  rw [emdF_eq_align, alignF_self, max_self, R.nat _ (by omega), sub_zero, R.nat _ (by omega)]

theorem sum_count_firsts (l : List (List Char)) :
    ((firsts l).map (fun g => l.count g)).sum = l.length := by
  have h1 : (firsts l).Perm l.dedup :=
    (List.perm_ext_iff_of_nodup (nodup_firsts l) (List.nodup_dedup l)).2
      (fun x => by rw [mem_firsts, List.mem_dedup])
  rw [(h1.map _).sum_eq]
  have h := List.sum_map_count_dedup_eq_length l
  convert h
  rfl

theorem sum_shared3_le (n : ℤ) (q w : List Char) :
    ((shared3 n q w).map (fun g => (grams n.toNat q).count g)).sum ≤ (grams n.toNat q).length := by
  rw [← sum_count_firsts (grams n.toNat q)]
  unfold shared3
  exact (List.Sublist.map _ List.filter_sublist).sum_le_sum (fun _ _ => Nat.zero_le _)

/-- Adding integers-bounded parts. -/
theorem foldl_le_nat (l : List (List Char)) (f : List Char → ℚ) (c : List Char → ℕ)
    (hf : ∀ g ∈ l, 0 ≤ f g ∧ f g ≤ c g) :
    ∀ (s : ℚ) (m : ℕ), 0 ≤ s → s ≤ m → m + (l.map c).sum ≤ 2 ^ 53 →
    0 ≤ l.foldl (fun s g => R.fl (s + f g)) s ∧
    l.foldl (fun s g => R.fl (s + f g)) s ≤ ((m + (l.map c).sum : ℕ) : ℚ) := by
  induction l with
  | nil => intro s m h0 h1 _; exact ⟨h0, by simpa using h1⟩
  | cons g l ih =>
    intro s m h0 h1 h2
    rw [List.map_cons, List.sum_cons] at h2 ⊢
    obtain ⟨b1, b2⟩ := hf g (by simp)
    rw [List.foldl_cons, ← Nat.add_assoc]
    refine ih (fun g hg => hf g (by simp [hg])) _ (m + c g) (fl_nonneg (by linarith)) ?_ (by omega)
    apply fl_le_nat (by omega)
    push_cast
    linarith

theorem foldl_eq_nat (l : List (List Char)) (f : List Char → ℚ) (c : List Char → ℕ)
    (hf : ∀ g ∈ l, f g = c g) :
    ∀ (m : ℕ), m + (l.map c).sum ≤ 2 ^ 53 →
    l.foldl (fun s g => R.fl (s + f g)) (m : ℚ) = ((m + (l.map c).sum : ℕ) : ℚ) := by
  induction l with
  | nil => intro m _; simp
  | cons g l ih =>
    intro m h2
    rw [List.map_cons, List.sum_cons] at h2 ⊢
    have e : R.fl ((m : ℚ) + f g) = ((m + c g : ℕ) : ℚ) := by
      rw [hf g (by simp), ← Nat.cast_add, R.nat _ (by omega)]
    rw [List.foldl_cons, e, ih (fun g hg => hf g (by simp [hg])) _ (by omega), Nat.add_assoc]

theorem overlap3F_bounds {n : ℤ} {q w : List Char} (hT : total3 n q w ≤ 2 ^ 53) :
    0 ≤ overlap3F R n q w ∧ overlap3F R n q w ≤ ((grams n.toNat q).length : ℚ) := by
  have hs := sum_shared3_le n q w
  have h := foldl_le_nat (R := R) (shared3 n q w) (fun g => part3F R n q w g)
    (fun g => (grams n.toNat q).count g)
    (fun g _ => ⟨(part3F_bounds hT).1, (part3F_bounds hT).2.trans (by
      exact_mod_cast Nat.min_le_left _ _)⟩) 0 0 le_rfl (by simp)
    (by unfold total3 at hT; omega)
  refine ⟨h.1, h.2.trans ?_⟩
  rw [Nat.zero_add]
  exact_mod_cast hs

theorem overlap3F_self {n : ℤ} (hn : 1 < n) {q : List Char} (hT : total3 n q q ≤ 2 ^ 53) :
    overlap3F R n q q = ((grams n.toNat q).length : ℚ) := by
  have hg : gramsOf n q = grams n.toNat q := by unfold gramsOf; rw [if_pos hn]
  have hs : shared3 n q q = firsts (grams n.toNat q) := by
    unfold shared3
    rw [List.filter_eq_self]
    intro g h
    rw [mem_firsts] at h
    simpa [hg] using h
  have hl := sum_count_firsts (grams n.toNat q)
  have := foldl_eq_nat (R := R) (shared3 n q q) (fun g => part3F R n q q g)
    (fun g => (grams n.toNat q).count g) (fun g _ => part3F_self hn hT) 0
    (by unfold total3 at hT; rw [hs]; omega)
  rw [Nat.cast_zero, Nat.zero_add, hs, hl] at this
  unfold overlap3F
  rw [hs]
  exact this

theorem len3 {n : ℤ} (hn : 0 < n) {q : List Char} (hq : n ≤ (q.length : ℤ) + 2) :
    (((grams n.toNat q).length : ℕ) : ℚ) = (q.length : ℚ) + 3 - n ∧
      (0 : ℚ) < (q.length : ℚ) + 3 - n := by
  rw [grams, List.length_map, List.length_range, count_eq]
  have : ((q.length + 3 - n.toNat : ℕ) : ℤ) = (q.length : ℤ) + 3 - n := by omega
  have h3 : ((q.length + 3 - n.toNat : ℕ) : ℚ) = (q.length : ℚ) + 3 - n := by exact_mod_cast this
  have h4 : (0 : ℤ) < (q.length : ℤ) + 3 - n := by omega
  exact ⟨h3, by exact_mod_cast h4⟩

theorem score3F_bounds {n : ℤ} (hn : 0 < n) {q w : List Char} (hq : n ≤ (q.length : ℤ) + 2)
    (hT : q.length + w.length + 4 ≤ 2 ^ 53) :
    0 ≤ score3F R n q w ∧ score3F R n q w ≤ 1 := by
  obtain ⟨h1, h2⟩ := len3 hn hq
  obtain ⟨h3, h4⟩ := overlap3F_bounds (R := R) ((total3_le hn q w).trans hT)
  unfold score3F
  refine ⟨fl_nonneg (div_nonneg h3 h2.le), ?_⟩
  have := fl_le_nat (R := R) (n := 1) (by norm_num) (x := overlap3F R n q w / ((q.length : ℚ) + 3 - n))
    (by rw [Nat.cast_one, div_le_one h2, ← h1]; exact h4)
  exact_mod_cast this

theorem score3F_self {n : ℤ} (hn : 2 ≤ n) {q : List Char} (hq : n ≤ (q.length : ℤ) + 2)
    (hT : q.length + q.length + 4 ≤ 2 ^ 53) : score3F R n q q = 1 := by
  obtain ⟨h1, h2⟩ := len3 (by omega) hq
  unfold score3F
  rw [overlap3F_self (by omega) ((total3_le (by omega) q q).trans hT), h1, div_self h2.ne']
  have := R.nat 1 (by norm_num)
  exact_mod_cast this

theorem scoreVec3F_floats {ns : List ℤ} {q w : List Char}
    (hn : ∀ n ∈ ns, 0 < n ∧ n ≤ (q.length : ℤ) + 2) (hT : q.length + w.length + 4 ≤ 2 ^ 53) :
    Floats R (scoreVec3F R ns q w) := by
  intro x hx
  obtain ⟨n, h, rfl⟩ := List.mem_map.1 hx
  exact ⟨(score3F_bounds (hn n h).1 (hn n h).2 hT).1, R.idem _⟩

theorem mean3F_bounds {ns : List ℤ} {q w : List Char}
    (hn : ∀ n ∈ ns, 0 < n ∧ n ≤ (q.length : ℤ) + 2) (hT : q.length + w.length + 4 ≤ 2 ^ 53)
    (hN : ns.length ≤ 2 ^ 53) (hS : (ns.length : ℕ∞) ≤ R.sumMax) :
    0 ≤ mean1F R (scoreVec3F R ns q w) ∧ mean1F R (scoreVec3F R ns q w) ≤ 1 := by
  have hv := scoreVec3F_floats (R := R) (w := w) hn hT
  have hl : (scoreVec3F R ns q w).length = ns.length := by simp [scoreVec3F]
  obtain ⟨b1, -⟩ := mean1F_bounds (R := R) hv (by rw [hl]; exact hS)
  refine ⟨le_trans (mul_nonneg (one_sub_pow_nonneg _) (mean1_nonneg fun x hx => (hv x hx).1)) b1, ?_⟩
  apply mean1F_le_one hv
  · intro x hx
    obtain ⟨n, h, rfl⟩ := List.mem_map.1 hx
    exact (score3F_bounds (hn n h).1 (hn n h).2 hT).2
  · rw [hl]; exact hS
  · rw [hl]; exact hN

theorem mean3F_self {ns : List ℤ} (hne : ns ≠ []) {q : List Char}
    (hn : ∀ n ∈ ns, 2 ≤ n ∧ n ≤ (q.length : ℤ) + 2) (hT : q.length + q.length + 4 ≤ 2 ^ 53)
    (hN : ns.length ≤ 2 ^ 53) (hS : (ns.length : ℕ∞) ≤ R.sumMax) :
    mean1F R (scoreVec3F R ns q q) = 1 := by
  have e : scoreVec3F R ns q q = List.replicate ns.length 1 := by
    unfold scoreVec3F
    rw [List.map_eq_replicate_iff]
    exact fun n h => score3F_self (hn n h).1 (hn n h).2 hT
  rw [e]
  exact mean1F_replicate_one (by simpa using hne) hN hS

end Fp
end Verif
