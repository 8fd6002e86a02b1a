import Verif.Fp.RangeEmd
import Verif.Fp.IndexAccum

/-!
# Similarities within the range of exponents
-/

namespace Verif
namespace Fp

open GramSpec

variable {comp : Bool} {O U : FOps}

theorem Bd.int {e : ℤ} {k N : ℕ} (he : e ≤ 0) {n : ℤ} (hn : |n| ≤ N) : Bd e k N (n : ℚ) := by
  refine ⟨OnGrid.int he n, ?_⟩
  have h1 : |(n : ℚ)| ≤ N := by rw [← Int.cast_abs]; exact_mod_cast hn
  exact h1.trans (le_mul_of_one_le_right (Nat.cast_nonneg N) (one_le_pow₀ (by norm_num)))

/-! ## Positions -/

/-- A fraction between 0 and 1 whose denominator is not too large. -/
def Frac (p : ℚ) : Prop := ∃ i d : ℕ, p = i / d ∧ i ≤ d ∧ 1 ≤ d ∧ d ≤ 2 ^ 53

theorem Frac.range {p : ℚ} (hO : IsDouble comp O) (h : Frac p) :
    O.fl p = rne p ∧ Bd (-106) 0 1 (rne p) := by
  obtain ⟨i, d, rfl, h1, h2, h3⟩ := h
  obtain ⟨h4, h5⟩ := hO.quot_eq (e := 0) (k := 0) (N := i) (x := i) (d := d) (by norm_num)
    (by norm_num) (by omega) (Bd.nat le_rfl i) (by rw [abs_of_nonneg (by omega)]; exact_mod_cast h3)
  rw [Int.cast_natCast] at h4 h5
  refine ⟨h4, h5.grid, abs_rne_le (by norm_num) ?_⟩
  rw [pow_zero, mul_one, Nat.cast_one, abs_of_nonneg (by positivity), div_le_one (by positivity)]
  exact_mod_cast h1

theorem frac_relPos {m i : ℕ} (hi : i < m) (hm : m ≤ 2 ^ 53) : Frac (relPos m i) := by
  unfold relPos
  rcases Nat.lt_or_ge m 2 with h | h
  · refine ⟨i, 1, ?_, by omega, le_rfl, by norm_num⟩
    rw [max_eq_left, Nat.cast_one]
    have : (m : ℚ) ≤ 2 := by exact_mod_cast h.le
    linarith
  · refine ⟨i, m - 1, ?_, by omega, by omega, by omega⟩
    rw [max_eq_right, Nat.cast_sub (by omega), Nat.cast_one]
    have : (2 : ℚ) ≤ m := by exact_mod_cast h
    linarith

/-- All positions are such fractions. -/
def Fracs (xs : List ℚ) : Prop := ∀ x ∈ xs, Frac x

theorem Fracs.map_fl {xs : List ℚ} (hO : IsDouble comp O) (h : Fracs xs) :
    xs.map O.fl = xs.map rne ∧ Pts (-106) 0 (xs.map rne) := by
  refine ⟨List.map_congr_left fun x hx => ((h x hx).range hO).1, ?_⟩
  intro y hy
  obtain ⟨x, hx, rfl⟩ := List.mem_map.1 hy
  exact ((h x hx).range hO).2

theorem emd_range_frac (hO : IsDouble comp O) (hU : U.fl = rne) {xs ys : List ℚ} (hx : Fracs xs)
    (hy : Fracs ys) (hl : xs.length + ys.length ≤ 2 ^ 53) :
    emdF O (xs.map O.fl) (ys.map O.fl) = emdF U (xs.map U.fl) (ys.map U.fl) ∧
      Bd (-106) 0 (xs.length + ys.length) (emdF U (xs.map U.fl) (ys.map U.fl)) := by
  obtain ⟨x1, x2⟩ := hx.map_fl hO
  obtain ⟨y1, y2⟩ := hy.map_fl hO
  rw [x1, y1, hU]
  have := emdF_range hO hU (e := -106) (k := 0) (by norm_num) (by norm_num) (by norm_num) x2 y2
    (by simpa using hl)
  simpa only [List.length_map] using this

/-! ## Loops -/

theorem foldl_range {α : Type} {e : ℤ} {k M : ℕ} {f g : ℚ → α → ℚ} (wt : α → ℕ) (L : List α)
    (h : ∀ a ∈ L, ∀ s c, Bd e k c s → c + wt a ≤ M → f s a = g s a ∧ Bd e k (c + wt a) (g s a))
    {s : ℚ} {c : ℕ} (hs : Bd e k c s) (hc : c + (L.map wt).sum ≤ M) :
    L.foldl f s = L.foldl g s ∧ Bd e k (c + (L.map wt).sum) (L.foldl g s) := by
  induction L generalizing s c with
  | nil => exact ⟨rfl, by simpa using hs⟩
  | cons a L ih =>
    rw [List.map_cons, List.sum_cons] at hc ⊢
    obtain ⟨h1, h2⟩ := h a List.mem_cons_self s c hs (by omega)
    rw [List.foldl_cons, List.foldl_cons, h1, ← Nat.add_assoc]
    exact ih (fun a ha => h a (List.mem_cons_of_mem _ ha)) h2 (by omega)

/-- One n-gram in `ngram_movers_distance` and in a word list. -/
theorem step_range (hO : IsDouble comp O) (hU : U.fl = rne) {xs ys : List ℚ} (hx : Fracs xs)
    (hy : Fracs ys) {s : ℚ} {c : ℕ} (hs : Bd (-106) 0 c s)
    (hc : c + 2 * (xs.length + ys.length) ≤ 2 ^ 53) :
    O.fl (O.fl (s + (xs.length + ys.length)) - emdF O (xs.map O.fl) (ys.map O.fl)) =
      U.fl (U.fl (s + (xs.length + ys.length)) - emdF U (xs.map U.fl) (ys.map U.fl)) ∧
    Bd (-106) 0 (c + 2 * (xs.length + ys.length))
      (U.fl (U.fl (s + (xs.length + ys.length)) - emdF U (xs.map U.fl) (ys.map U.fl))) := by
  obtain ⟨e1, e2⟩ := emd_range_frac hO hU hx hy (by omega)
  have a1 : Bd (-106) 0 (c + (xs.length + ys.length)) (s + ((xs.length : ℚ) + ys.length)) :=
    hs.add ((Bd.nat (by norm_num) _).add (Bd.nat (by norm_num) _))
  have f1 := hO.fl_eq (by norm_num) (by norm_num) (by omega) a1
  have a2 := (a1.rne (by omega)).sub e2
  have f2 := hO.fl_eq (by norm_num) (by norm_num) (by omega) a2
  have a3 := (a2.rne (by omega)).mono
    (show _ ≤ c + 2 * (xs.length + ys.length) by omega)
  rw [e1, f1, f2, congrFun hU (s + _), congrFun hU (rne _ - _)]
  exact ⟨rfl, a3⟩

/-- One n-gram in a word set. -/
theorem setStep_range (hO : IsDouble comp O) (hU : U.fl = rne) {xs ys : List ℚ} (hx : Fracs xs)
    (hy : Fracs ys) {s : ℚ} {c : ℕ} (hs : Bd (-106) 0 c s)
    (hc : c + 2 * (xs.length + ys.length) ≤ 2 ^ 53) :
    O.fl (s + O.fl ((xs.length : ℚ) + ys.length - emdF O (xs.map O.fl) (ys.map O.fl))) =
      U.fl (s + U.fl ((xs.length : ℚ) + ys.length - emdF U (xs.map U.fl) (ys.map U.fl))) ∧
    Bd (-106) 0 (c + 2 * (xs.length + ys.length))
      (U.fl (s + U.fl ((xs.length : ℚ) + ys.length - emdF U (xs.map U.fl) (ys.map U.fl)))) := by
  obtain ⟨e1, e2⟩ := emd_range_frac hO hU hx hy (by omega)
  have a1 : Bd (-106) 0 ((xs.length + ys.length) + (xs.length + ys.length))
      ((xs.length : ℚ) + ys.length - emdF U (xs.map U.fl) (ys.map U.fl)) :=
    ((Bd.nat (by norm_num) _).add (Bd.nat (by norm_num) _)).sub e2
  have f1 := hO.fl_eq (by norm_num) (by norm_num) (by omega) a1
  have a2 := hs.add (a1.rne (by omega))
  have f2 := hO.fl_eq (by norm_num) (by norm_num) (by omega) a2
  have a3 := (a2.rne (by omega)).mono
    (show _ ≤ c + 2 * (xs.length + ys.length) by omega)
  rw [e1, f1, f2, congrFun hU ((xs.length : ℚ) + ys.length - _), congrFun hU (s + _)]
  exact ⟨rfl, a3⟩

/-! ## `ngram_movers_distance` -/

theorem commonItems_eq (n : ℕ) (w₁ w₂ : List Char) : commonItems O n w₁ w₂ = commonItems U n w₁ w₂ := by
  unfold commonItems commonKeys
  rw [keys_group_firsts, keys_group_firsts, map_fst_locatedF, map_fst_locatedF]

theorem fracs_locs {n : ℕ} {w g : List Char} (h : count n w ≤ 2 ^ 53) :
    Fracs (Dict.locs (located n w) g) := by
  intro x hx
  have := Dict.mem_locs.1 hx
  unfold located at this
  obtain ⟨i, hi, he⟩ := List.mem_map.1 this
  injection he with _ he
  rw [← he]
  exact frac_relPos (List.mem_range.1 hi) h

theorem simF_range (hO : IsDouble comp O) (hU : U.fl = rne) {n : ℕ} {w₁ w₂ : List Char}
    (hT : 2 * (count n w₁ + count n w₂) ≤ 2 ^ 53) :
    simF O n w₁ w₂ = simF U n w₁ w₂ ∧
      Bd (-106) 0 (2 * (count n w₁ + count n w₂)) (simF U n w₁ w₂) := by
  unfold simF
  rw [commonItems_eq (O := O) (U := U), List.foldl_map, List.foldl_map]
  have hlen := itemsLen_common_le (R := U) n w₁ w₂
  have hw : ((commonItems U n w₁ w₂).map fun i => 2 * (i.1.length + i.2.length)).sum =
      2 * itemsLen (commonItems U n w₁ w₂) := by
    unfold itemsLen
    rw [List.sum_map_mul_left]
  obtain ⟨h1, h2⟩ := foldl_range (e := -106) (k := 0) (M := 2 ^ 53)
    (f := fun s (i : List ℚ × List ℚ) => simStep O s (i.1.map O.fl, i.2.map O.fl))
    (g := fun s (i : List ℚ × List ℚ) => simStep U s (i.1.map U.fl, i.2.map U.fl))
    (fun i : List ℚ × List ℚ => 2 * (i.1.length + i.2.length)) (commonItems U n w₁ w₂) (by
      rintro ⟨xs, ys⟩ hi s c hs hc
      obtain ⟨g, _, he⟩ := List.mem_map.1 hi
      injection he with hx hy
      have := step_range hO hU (xs := xs) (ys := ys) (hx ▸ fracs_locs (by omega))
        (hy ▸ fracs_locs (by omega)) hs hc
      simpa only [simStep, List.length_map] using this) (s := 0) (c := 0) Bd.zero (by rw [hw]; omega)
  rw [hw, Nat.zero_add] at h2
  exact ⟨h1, h2.mono (by omega)⟩

/-- Words that are not too long and numbers that are not too large. -/
def SmallArg : PyVal → Prop
  | .str s => s.length ≤ 2 ^ 48
  | .int n => |n| ≤ 2 ^ 48
  | .other => True

theorem nmdCheckedF_range (hO : IsDouble comp O) (hU : U.fl = rne) {w₁ w₂ : List Char} {n : ℤ}
    (hn : 2 ≤ n) (h1 : w₁.length ≤ 2 ^ 48) (h2 : w₂.length ≤ 2 ^ 48) (h3 : |n| ≤ 2 ^ 48)
    (invert normalize : Bool) :
    nmdCheckedF O w₁ w₂ n invert normalize = nmdCheckedF U w₁ w₂ n invert normalize ∧
      ∀ r, nmdCheckedF U w₁ w₂ n invert normalize = .ok r → Bd (-212) 52 1 r := by
  have c1 : count n.toNat w₁ ≤ 2 ^ 49 := by unfold count bracketed; simp; omega
  have c2 : count n.toNat w₂ ≤ 2 ^ 49 := by unfold count bracketed; simp; omega
  obtain ⟨s1, s2⟩ := simF_range hO hU (n := n.toNat) (w₁ := w₁) (w₂ := w₂) (by omega)
  have hs : ∀ R : FOps, similarityLoopF R (nGramLocationsF R (pad w₁) n)
      (nGramLocationsF R (pad w₂) n) = simF R n.toNat w₁ w₂ := by
    intro R
    rw [nGramLocationsF_eq _ _ hn, nGramLocationsF_eq _ _ hn, similarityLoopF_eq]
  unfold nmdCheckedF
  simp only [hs, s1]
  set m := numGramsInt (pad w₁) n + numGramsInt (pad w₂) n with hm
  have hmb : |m| ≤ 2 ^ 51 := by
    rw [hm]
    unfold numGramsInt pad
    rw [abs_le] at h3 ⊢
    simp only [List.length_cons, List.length_append, List.length_nil]
    omega
  have hcast : ((numGramsInt (pad w₁) n : ℤ) : ℚ) + (numGramsInt (pad w₂) n : ℤ) = (m : ℚ) := by
    rw [hm]; push_cast; rfl
  rw [hcast]
  have s3 : Bd (-106) 0 (2 ^ 51) (simF U n.toNat w₁ w₂) := s2.mono (by omega)
  have b1 : Bd (-106) 0 (2 ^ 51 + 2 ^ 51) ((m : ℚ) - simF U n.toNat w₁ w₂) :=
    (Bd.int (by norm_num) hmb).sub s3
  have f1 := hO.fl_eq (by norm_num) (by norm_num) (by norm_num) b1
  have b2 : Bd (-106) 0 (2 ^ 52) (if invert = true then simF U n.toNat w₁ w₂
      else rne ((m : ℚ) - simF U n.toNat w₁ w₂)) := by
    cases invert
    · exact (b1.rne (by norm_num)).mono (by norm_num)
    · exact s3.mono (by norm_num)
  obtain ⟨q1, q2⟩ := hO.quot_eq (by norm_num) (by norm_num) (by norm_num) b2 (d := m)
    (hmb.trans (by norm_num))
  simp only [hU, f1, q1]
  refine ⟨trivial, fun r hr => ?_⟩
  have mk : ∀ {e : ℤ} {x : ℚ}, -212 ≤ e → Bd e 0 (2 ^ 52) x → Bd (-212) 52 1 x := by
    intro e x he hx
    refine ⟨hx.grid.mono he, ?_⟩
    have := hx.le
    push_cast at this ⊢
    linarith
  cases normalize with
  | false =>
    simp only [Bool.false_eq_true, if_false, Except.ok.injEq] at hr
    exact hr ▸ mk (by norm_num) b2
  | true =>
    simp only [if_true] at hr
    split at hr
    · cases hr
    · injection hr with hr
      exact hr ▸ mk (by norm_num) q2

/-- `ngram_movers_distance` in binary64 is `ngram_movers_distance` without bounds on the exponent. -/
theorem nmdF_range (hO : IsDouble comp O) (hU : U.fl = rne) {v₁ v₂ k : PyVal} (h1 : SmallArg v₁)
    (h2 : SmallArg v₂) (h3 : SmallArg k) (invert normalize : Bool) :
    nmdF O v₁ v₂ k invert normalize = nmdF U v₁ v₂ k invert normalize ∧
      ∀ r, nmdF U v₁ v₂ k invert normalize = .ok r → Bd (-212) 52 1 r := by
  unfold nmdF
  simp only [bind, Except.bind]
  cases hc1 : checkWord v₁ with
  | error e => exact ⟨rfl, fun _ h => nomatch h⟩
  | ok a =>
    cases hc2 : checkWord v₂ with
    | error e => exact ⟨rfl, fun _ h => nomatch h⟩
    | ok b =>
      cases hc3 : checkN k with
      | error e => exact ⟨rfl, fun _ h => nomatch h⟩
      | ok n =>
        simp only
        have g1 : v₁ = .str a := by
          cases v₁ <;> simp only [checkWord] at hc1
          · split at hc1 <;> cases hc1; rfl
          · cases hc1
          · cases hc1
        have g2 : v₂ = .str b := by
          cases v₂ <;> simp only [checkWord] at hc2
          · split at hc2 <;> cases hc2; rfl
          · cases hc2
          · cases hc2
        have g3 : k = .int n ∧ 2 ≤ n := by
          cases k <;> simp only [checkN] at hc3
          · cases hc3
          · split at hc3 <;> cases hc3
            exact ⟨rfl, by omega⟩
          · cases hc3
        rw [g1] at h1
        rw [g2] at h2
        rw [g3.1] at h3
        exact nmdCheckedF_range hO hU g3.2 h1 h2 h3 invert normalize

end Fp
end Verif
