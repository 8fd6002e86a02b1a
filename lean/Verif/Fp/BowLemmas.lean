import Verif.Fp.BowModel
import Verif.Fp.BowSpec
import Verif.Fp.Props
import Verif.Bow.Props

/-!
# Bag-of-words distance in rounded arithmetic: costs of pairs and sums over pairs
-/

namespace Verif
namespace Fp

open BowSpec GramSpec

variable {R : Rounding}

/-! ### The cost of a pair -/

/-- Distance used for a pair of words. -/
def bowDistF (R : Rounding) (n : ℤ) (w₁ w₂ : List Char) : ℚ :=
  match nmdF R (.str w₁) (.str w₂) (.int n) false true with
  | .ok r => r
  | .error _ => if w₁ = w₂ then 0 else 1

theorem nmdF_norm_cases {w₁ w₂ : List Char} (h₁ : Clean w₁) (h₂ : Clean w₂) {n : ℤ} (hn : 2 ≤ n) :
    nmdF R (.str w₁) (.str w₂) (.int n) false true = .ok (bowDistF R n w₁ w₂) ∨
      (nmdF R (.str w₁) (.str w₂) (.int n) false true = .error .zeroDivisionError ∧
        bowDistF R n w₁ w₂ = if w₁ = w₂ then 0 else 1) := by
  unfold bowDistF
  rw [nmdF_valid h₁ h₂ hn]
  simp only [if_true]
  by_cases hz : countInt n w₁ + countInt n w₂ = 0
  · right; rw [if_pos hz]; exact ⟨rfl, rfl⟩
  · left; rw [if_neg hz]

theorem bowCellF_valid {w₁ w₂ : List Char} (h₁ : Clean w₁) (h₂ : Clean w₂) {n : ℤ} (hn : 2 ≤ n) :
    bowCellF R (.int n) (.str w₁) (.str w₂) = .ok (bowDistF R n w₁ w₂) := by
  unfold bowCellF
  rcases nmdF_norm_cases (R := R) h₁ h₂ hn with h | ⟨h, h'⟩
  · rw [h]
  · rw [h, h']
    by_cases e : w₁ = w₂ <;> simp [e]

theorem fl_int {n : ℤ} (hn : |n| ≤ 2 ^ 53) : R.fl (n : ℚ) = n := by
  rw [abs_le] at hn
  rcases le_total 0 n with h0 | h0
  · lift n to ℕ using h0
    have := R.nat n (by exact_mod_cast hn.2)
    exact_mod_cast this
  · obtain ⟨m, rfl⟩ : ∃ m : ℕ, n = -(m : ℤ) := ⟨n.natAbs, by omega⟩
    have := R.nat m (by omega)
    push_cast
    rw [R.odd, this]

/-- If one of the words has no n-gram, the normalised distance is 1 in both arithmetics. -/
theorem bowDistF_short {v w : List Char} (hv : Clean v) (hw : Clean w) {n : ℤ} (hn : 2 ≤ n)
    (sv : Small n v) (sw : Small n w) (h : countInt n v ≤ 0 ∨ countInt n w ≤ 0) :
    bowDistF R n v w = bowDist n v w := by
  have hdis : Disjoint (gramSet (located n.toNat v)) (gramSet (located n.toNat w)) := by
    rcases h with h | h <;> rw [located_eq_nil h] <;> simp [gramSet]
  unfold bowDistF bowDist
  rw [nmdF_valid hv hw hn, nmd_valid hv hw hn, simF_eq_zero hdis]
  have hl : locSim (located n.toNat v) (located n.toNat w) = 0 := by
    unfold locSim
    rw [Finset.disjoint_iff_inter_eq_empty.1 hdis, Finset.sum_empty]
  simp only [hl, if_true, Bool.false_eq_true, if_false, sub_zero]
  by_cases hz : countInt n v + countInt n w = 0
  · rw [if_pos hz, if_pos hz]
  · rw [if_neg hz, if_neg hz]
    simp only
    have h1 := sv.2
    have h2 := sw.2
    have h3 := sv.1
    have e : R.fl ((countInt n v : ℚ) + countInt n w) = (countInt n v : ℚ) + countInt n w := by
      have := fl_int (R := R) (n := countInt n v + countInt n w) (by
        unfold countInt
        rw [abs_le]
        constructor <;> norm_num at * <;> omega)
      push_cast at this
      exact this
    have hz' : (countInt n v : ℚ) + countInt n w ≠ 0 := by exact_mod_cast hz
    rw [e, div_self hz', nat_fl_one]

theorem count_add_le {n : ℤ} {v w : List Char} (hn : 2 ≤ n) :
    count n.toNat v + count n.toNat w ≤ v.length + w.length + 2 := by
  rw [count_eq, count_eq]; omega

theorem bowDistF_range {n : ℤ} (hn : 2 ≤ n) {v w : List Char} (hv : Clean v) (hw : Clean w)
    (sv : Small n v) (sw : Small n w) : 0 ≤ bowDistF R n v w ∧ bowDistF R n v w ≤ 1 := by
  by_cases h : countInt n v ≤ 0 ∨ countInt n w ≤ 0
  · rw [bowDistF_short hv hw hn sv sw h]
    exact bowDist_range hn hv hw
  · rw [not_or, not_le, not_le] at h
    unfold countInt at h
    have hT : count n.toNat v + count n.toNat w ≤ 2 ^ 53 := by
      have h1 := sv.2
      have h2 := sw.2
      have := count_add_le (v := v) (w := w) hn
      norm_num at *; omega
    rcases nmdF_norm_cases (R := R) hv hw hn with e | ⟨_, e⟩
    · have := (C104_nmd_float_range R hv hw hn (by omega) (by omega) hT false).2 e
      exact ⟨this.1, this.2.1⟩
    · rw [e]; split_ifs <;> norm_num

theorem fl_bowDistF {n : ℤ} (hn : 2 ≤ n) {v w : List Char} (hv : Clean v) (hw : Clean w) :
    R.fl (bowDistF R n v w) = bowDistF R n v w := by
  rcases nmdF_norm_cases (R := R) hv hw hn with e | ⟨_, e⟩
  · rw [nmdF_valid hv hw hn] at e
    simp only [if_true] at e
    split at e
    · cases e
    · injection e with e
      rw [← e, R.idem]
  · rw [e]; split_ifs
    · exact fl_zero
    · exact nat_fl_one R

theorem bowDistF_err {n : ℤ} (hn : 2 ≤ n) {v w : List Char} (hv : Clean v) (hw : Clean w)
    (sv : Small n v) (sw : Small n w) {T : ℕ} (hTd : v.length + w.length + 2 ≤ T)
    (hTu : (T : ℚ) * R.u ≤ 1 / 2) :
    |bowDistF R n v w - bowDist n v w| ≤ 6 * T * R.u := by
  have hu := R.u_pos
  by_cases h : countInt n v ≤ 0 ∨ countInt n w ≤ 0
  · rw [bowDistF_short hv hw hn sv sw h, sub_self, abs_zero]
    positivity
  · rw [not_or, not_le, not_le] at h
    have h' := h
    unfold countInt at h
    have hc := count_add_le (v := v) (w := w) hn
    have hT : count n.toNat v + count n.toNat w ≤ 2 ^ 53 := by
      have h1 := sv.2
      have h2 := sw.2
      norm_num at *; omega
    have hq : ((count n.toNat v + count n.toNat w : ℕ) : ℚ) ≤ T := by exact_mod_cast hc.trans hTd
    have hz : countInt n v + countInt n w ≠ 0 := by omega
    have e1 : nmdF R (.str v) (.str w) (.int n) false true = .ok (bowDistF R n v w) := by
      rcases nmdF_norm_cases (R := R) hv hw hn with e | ⟨e, _⟩
      · exact e
      · rw [nmdF_valid hv hw hn] at e
        simp only [if_true, if_neg hz] at e
        cases e
    have e2 : nmd (.str v) (.str w) (.int n) false true = .ok (bowDist n v w) := by
      rcases nmd_norm_cases hv hw hn with e | ⟨e, _⟩
      · exact e
      · rw [nmd_valid hv hw hn] at e
        simp only [if_true, if_neg hz] at e
        cases e
    have := (C106_nmd_float_error R hv hw hn (by omega) (by omega) rfl hT
      (by nlinarith) false).2 e1 e2
    refine this.trans ?_
    nlinarith

/-! ### Sums over the pairs -/

theorem addFold_bounds {cs : List ℚ} (h : ∀ c ∈ cs, 0 ≤ c ∧ c ≤ 1) {k m : ℕ} {x : ℚ}
    (h1 : (k : ℚ) ≤ x) (h2 : x ≤ m) (hm : m + cs.length ≤ 2 ^ 53) :
    (k : ℚ) ≤ cs.foldl (fun o c => R.fl (o + c)) x ∧
      cs.foldl (fun o c => R.fl (o + c)) x ≤ ((m + cs.length : ℕ) : ℚ) := by
  induction cs generalizing x m with
  | nil => simpa using ⟨h1, h2⟩
  | cons c cs ih =>
    have hc := h c List.mem_cons_self
    rw [List.length_cons] at hm
    have hkm : k ≤ m := by exact_mod_cast h1.trans h2
    have := ih (fun c hc => h c (List.mem_cons_of_mem _ hc)) (x := R.fl (x + c)) (m := m + 1)
      (nat_le_fl (by omega) (by linarith)) (fl_le_nat (by omega) (by push_cast; linarith)) (by omega)
    rw [List.foldl_cons, List.length_cons]
    refine ⟨this.1, this.2.trans (le_of_eq ?_)⟩
    congr 1; omega

theorem subFold_bounds {cs : List ℚ} (h : ∀ c ∈ cs, 0 ≤ c ∧ c ≤ 1) {k m : ℕ} {x : ℚ}
    (h1 : ((k + cs.length : ℕ) : ℚ) ≤ x) (h2 : x ≤ m) (hm : m ≤ 2 ^ 53) :
    (k : ℚ) ≤ cs.foldl (fun o c => R.fl (o - c)) x ∧
      cs.foldl (fun o c => R.fl (o - c)) x ≤ m := by
  induction cs generalizing x with
  | nil => simpa using ⟨h1, h2⟩
  | cons c cs ih =>
    have hc := h c List.mem_cons_self
    rw [List.length_cons] at h1
    have hkm : k + (cs.length + 1) ≤ m := by exact_mod_cast h1.trans h2
    rw [List.foldl_cons]
    apply ih (fun c hc => h c (List.mem_cons_of_mem _ hc))
    · apply nat_le_fl (by omega)
      push_cast at h1 ⊢
      linarith
    · exact fl_le_nat hm (by linarith)

theorem addFold_err {cs : List ℚ} (h : ∀ c ∈ cs, 0 ≤ c ∧ c ≤ 1) {m B : ℕ} {x y : ℚ}
    (h1 : 0 ≤ x) (h2 : x ≤ m) (hm : m + cs.length ≤ B) (hB : B ≤ 2 ^ 53) :
    |cs.foldl (fun o c => R.fl (o + c)) x - (y + cs.sum)| ≤ |x - y| + cs.length * B * R.u := by
  induction cs generalizing x y m with
  | nil => simp
  | cons c cs ih =>
    have hc := h c List.mem_cons_self
    rw [List.length_cons] at hm
    have hu := R.u_pos
    have hxc : 0 ≤ x + c := by linarith
    have hxB : x + c ≤ B := by
      have : ((m + 1 : ℕ) : ℚ) ≤ B := by exact_mod_cast (by omega : m + 1 ≤ B)
      push_cast at this
      linarith
    have := ih (fun c hc => h c (List.mem_cons_of_mem _ hc)) (x := R.fl (x + c)) (y := y + c)
      (m := m + 1) (fl_nonneg hxc) (fl_le_nat (by omega) (by push_cast; linarith)) (by omega)
    rw [List.foldl_cons, List.length_cons, List.sum_cons, ← add_assoc]
    refine this.trans ?_
    have he : |R.fl (x + c) - (x + c)| ≤ B * R.u := by
      refine (R.err _).trans ?_
      rw [abs_of_nonneg hxc]
      nlinarith
    have : |R.fl (x + c) - (y + c)| ≤ B * R.u + |x - y| := by
      have : R.fl (x + c) - (y + c) = (R.fl (x + c) - (x + c)) + (x - y) := by ring
      rw [this]
      exact (abs_add_le _ _).trans (by linarith)
    push_cast
    linarith

theorem subFold_err {cs : List ℚ} (h : ∀ c ∈ cs, 0 ≤ c ∧ c ≤ 1) {B : ℕ} {x y : ℚ}
    (h1 : (cs.length : ℚ) ≤ x) (h2 : x ≤ B) (hB : B ≤ 2 ^ 53) :
    |cs.foldl (fun o c => R.fl (o - c)) x - (y - cs.sum)| ≤ |x - y| + cs.length * B * R.u := by
  induction cs generalizing x y with
  | nil => simp
  | cons c cs ih =>
    have hc := h c List.mem_cons_self
    rw [List.length_cons] at h1
    have hu := R.u_pos
    have hlB : cs.length + 1 ≤ B := by exact_mod_cast h1.trans h2
    push_cast at h1
    have hl0 : (0 : ℚ) ≤ cs.length := Nat.cast_nonneg _
    have hxc : 0 ≤ x - c := by linarith
    have := ih (fun c hc => h c (List.mem_cons_of_mem _ hc)) (x := R.fl (x - c)) (y := y - c)
      (nat_le_fl (by omega) (by linarith)) (fl_le_nat (by omega) (by linarith))
    rw [List.foldl_cons, List.length_cons, List.sum_cons, ← sub_sub]
    refine this.trans ?_
    have he : |R.fl (x - c) - (x - c)| ≤ B * R.u := by
      refine (R.err _).trans ?_
      rw [abs_of_nonneg hxc]
      nlinarith
    have : |R.fl (x - c) - (y - c)| ≤ B * R.u + |x - y| := by
      have : R.fl (x - c) - (y - c) = (R.fl (x - c) - (x - c)) + (x - y) := by ring
      rw [this]
      exact (abs_add_le _ _).trans (by linarith)
    push_cast
    linarith

/-- A sum of floats is at least every one of them. -/
theorem le_addFold {cs : List ℚ} (h : ∀ c ∈ cs, 0 ≤ c ∧ R.fl c = c) {x : ℚ} (hx : 0 ≤ x)
    (hf : R.fl x = x) :
    x ≤ cs.foldl (fun o c => R.fl (o + c)) x ∧
      ∀ c ∈ cs, c ≤ cs.foldl (fun o c => R.fl (o + c)) x := by
  induction cs generalizing x with
  | nil => simp
  | cons c cs ih =>
    have hc := h c List.mem_cons_self
    have a1 : x ≤ R.fl (x + c) := by
      conv_lhs => rw [← hf]
      exact R.mono (by linarith)
    have a2 : c ≤ R.fl (x + c) := by
      conv_lhs => rw [← hc.2]
      exact R.mono (by linarith)
    obtain ⟨i1, i2⟩ := ih (fun c hc => h c (List.mem_cons_of_mem _ hc)) (x := R.fl (x + c))
      (hx.trans a1) (R.idem _)
    rw [List.foldl_cons]
    refine ⟨a1.trans i1, ?_⟩
    intro d hd
    rcases List.mem_cons.1 hd with rfl | hd
    · exact a2.trans i1
    · exact i2 d hd

/-! ### The call -/

theorem lsaNear_complete {ε : ℚ} {lsa : List (List ℚ) → List (ℕ × ℕ)} (h : LsaNear ε lsa) :
    LsaComplete lsa := fun m C hm => (h m C hm).1

theorem lsaOk_iff_near {lsa : List (List ℚ) → List (ℕ × ℕ)} : LsaOk lsa ↔ LsaNear 0 lsa := by
  unfold LsaOk LsaNear
  simp only [add_zero]

/-- Result of the call for given costs of the pairs. -/
def bowResultF (R : Rounding) (la lb : ℕ) (cs : List ℚ) (invert normalize : Bool) :
    Except PyErr ℚ :=
  let out := if invert then cs.foldl (fun o c => R.fl (o - c)) (min (la : ℚ) lb)
    else cs.foldl (fun o c => R.fl (o + c)) |(la : ℚ) - lb|
  if normalize then
    if max la lb = 0 then .error .zeroDivisionError else .ok (R.fl (out / max (la : ℚ) lb))
  else .ok out

theorem foldF_entries {m : List (List ℚ)} (f : ℚ → ℚ → ℚ) {P : List (ℕ × ℕ)}
    (h : ∀ p ∈ P, bowEntry m p = .ok (entry m p.1 p.2)) (x : ℚ) :
    P.foldlM (fun out p => do let c ← bowEntry m p; return f out c) x =
      (.ok ((P.map fun p => entry m p.1 p.2).foldl f x) : Except PyErr ℚ) := by
  induction P generalizing x with
  | nil => rfl
  | cons p P ih =>
    rw [List.foldlM_cons, h p List.mem_cons_self]
    simp only [bind, Except.bind, pure, Except.pure] at ih ⊢
    rw [ih (fun q hq => h q (List.mem_cons_of_mem _ hq))]
    rfl

/-- The call once the costs are there. -/
theorem bowNmdF_of_costs {lsa : List (List ℚ) → List (ℕ × ℕ)} (hl : LsaComplete lsa)
    {a b : List PyVal} {k : PyVal} {m : List (List ℚ)} (hm : bowCostsF R k a b = .ok m)
    (hlen : m.length = a.length) (hrow : ∀ row ∈ m, row.length = b.length)
    (invert normalize : Bool) :
    bowNmdF R lsa a b k invert normalize =
      bowResultF R a.length b.length ((lsa m).map fun p => entry m p.1 p.2) invert normalize := by
  have hmt := hl m _ hrow
  have hpairs : (if m = [] then [] else lsa m) = lsa m := by
    split_ifs with h
    · subst h
      have := hmt.2.2.2
      simp at this
      exact this.symm
    · rfl
  have hent : ∀ p ∈ lsa m, bowEntry m p = .ok (entry m p.1 p.2) :=
    fun p hp => bowEntry_ok hrow (hmt.2.2.1 p hp).1 (hmt.2.2.1 p hp).2
  have f1 := foldF_entries (fun o c => R.fl (o + c)) hent |(a.length : ℚ) - b.length|
  have f2 := foldF_entries (fun o c => R.fl (o - c)) hent (min (a.length : ℚ) b.length)
  unfold bowNmdF bowResultF
  rw [hm]
  simp only [bind, Except.bind, hpairs] at f1 f2 ⊢
  cases invert <;> cases normalize <;>
    simp only [f1, f2, if_true, if_false, Bool.false_eq_true] <;> rfl

theorem bowCostsF_valid {a b : List (List Char)} (ha : ∀ w ∈ a, Clean w) (hb : ∀ w ∈ b, Clean w)
    {n : ℤ} (hn : 2 ≤ n) :
    bowCostsF R (.int n) (a.map .str) (b.map .str) = .ok (distMatrix (bowDistF R n) a b) := by
  unfold bowCostsF
  rw [List.mapM_map]
  apply mapM_ok
  intro x hx
  simp only [Function.comp_apply]
  rw [List.mapM_map]
  apply mapM_ok
  intro y hy
  exact bowCellF_valid (ha x hx) (hb y hy) hn

theorem distMatrix_rows (d : List Char → List Char → ℚ) (a b : List (List Char)) :
    ∀ row ∈ distMatrix d a b, row.length = b.length := by
  intro row hr
  obtain ⟨x, _, rfl⟩ := List.mem_map.1 hr
  simp

theorem length_distMatrix (d : List Char → List Char → ℚ) (a b : List (List Char)) :
    (distMatrix d a b).length = a.length := by simp [distMatrix]

/-- The costs of the pairs chosen by a solver. -/
def bowPicked (R : Rounding) (lsa : List (List ℚ) → List (ℕ × ℕ)) (n : ℤ) (a b : List (List Char)) :
    List ℚ :=
  (lsa (distMatrix (bowDistF R n) a b)).map fun p =>
    entry (distMatrix (bowDistF R n) a b) p.1 p.2

theorem bowNmdF_valid {lsa : List (List ℚ) → List (ℕ × ℕ)} (hl : LsaComplete lsa)
    {a b : List (List Char)} (ha : ∀ w ∈ a, Clean w) (hb : ∀ w ∈ b, Clean w) {n : ℤ} (hn : 2 ≤ n)
    (invert normalize : Bool) :
    bowNmdF R lsa (a.map .str) (b.map .str) (.int n) invert normalize =
      bowResultF R a.length b.length (bowPicked R lsa n a b) invert normalize := by
  rw [bowNmdF_of_costs hl (bowCostsF_valid ha hb hn)
    (by rw [length_distMatrix, List.length_map])
    (by rw [List.length_map]; exact distMatrix_rows _ _ _)]
  rw [List.length_map, List.length_map]
  rfl

theorem length_bowPicked {lsa : List (List ℚ) → List (ℕ × ℕ)} (hl : LsaComplete lsa) (n : ℤ)
    (a b : List (List Char)) : (bowPicked R lsa n a b).length = min a.length b.length := by
  unfold bowPicked
  rw [List.length_map, (hl _ _ (distMatrix_rows _ a b)).2.2.2, length_distMatrix]

/-- Every cost chosen is that of a word of each bag. -/
theorem mem_bowPicked {lsa : List (List ℚ) → List (ℕ × ℕ)} (hl : LsaComplete lsa) {n : ℤ}
    {a b : List (List Char)} {c : ℚ} (hc : c ∈ bowPicked R lsa n a b) :
    ∃ v ∈ a, ∃ w ∈ b, c = bowDistF R n v w := by
  obtain ⟨p, hp, rfl⟩ := List.mem_map.1 hc
  have h := (hl _ _ (distMatrix_rows (bowDistF R n) a b)).2.2.1 p hp
  rw [length_distMatrix] at h
  rw [entry_distMatrix _ h.1 h.2]
  refine ⟨_, ?_, _, ?_, rfl⟩
  · simp [item, h.1]
  · simp [item, h.2]

theorem sum_bowPicked (lsa : List (List ℚ) → List (ℕ × ℕ)) (n : ℤ) (a b : List (List Char)) :
    (bowPicked R lsa n a b).sum =
      matchCost (distMatrix (bowDistF R n) a b) (lsa (distMatrix (bowDistF R n) a b)) := rfl

/-- Two matrices of distances that differ by at most `δ` in every entry. -/
theorem matchCost_close {d d' : List Char → List Char → ℚ} {a b : List (List Char)} {δ : ℚ}
    (hd : ∀ v ∈ a, ∀ w ∈ b, |d v w - d' v w| ≤ δ) {P : List (ℕ × ℕ)}
    (hP : ∀ p ∈ P, p.1 < a.length ∧ p.2 < b.length) :
    |matchCost (distMatrix d a b) P - matchCost (distMatrix d' a b) P| ≤ P.length * δ := by
  induction P with
  | nil => simp [matchCost]
  | cons p P ih =>
    have h1 := ih (fun q hq => hP q (List.mem_cons_of_mem _ hq))
    have hp := hP p List.mem_cons_self
    have h2 : |entry (distMatrix d a b) p.1 p.2 - entry (distMatrix d' a b) p.1 p.2| ≤ δ := by
      rw [entry_distMatrix _ hp.1 hp.2, entry_distMatrix _ hp.1 hp.2]
      apply hd
      · simp [item, hp.1]
      · simp [item, hp.2]
    unfold matchCost at h1 ⊢
    rw [List.map_cons, List.map_cons, List.sum_cons, List.sum_cons, List.length_cons]
    rw [abs_le] at h1 h2 ⊢
    push_cast
    constructor <;> linarith [h1.1, h1.2, h2.1, h2.2]

/-- The total of the chosen costs is near the least total of the true distances. -/
theorem sum_bowPicked_near {lsa : List (List ℚ) → List (ℕ × ℕ)} {ε : ℚ} (hl : LsaNear ε lsa) (n : ℤ)
    {a b : List (List Char)} {δ c : ℚ}
    (hd : ∀ v ∈ a, ∀ w ∈ b, |bowDistF R n v w - bowDist n v w| ≤ δ) (hε : 0 ≤ ε)
    (hc : IsLeastAssign (bowDist n) a b c) :
    |(bowPicked R lsa n a b).sum - c| ≤ ε + (min a.length b.length : ℕ) * δ := by
  obtain ⟨h1, h2⟩ := hl _ _ (distMatrix_rows (bowDistF R n) a b)
  rw [length_distMatrix] at h1 h2
  obtain ⟨h3, h4⟩ := bruteLsa_ok _ _ (distMatrix_rows (bowDist n) a b)
  rw [length_distMatrix] at h3 h4
  have hc' := (lsa_least bruteLsa_ok (bowDist n) a b).unique hc
  have e1 := matchCost_close hd h1.2.2.1
  have e2 := matchCost_close hd h3.2.2.1
  rw [h1.2.2.2] at e1
  rw [h3.2.2.2] at e2
  have g1 := h2 _ h3
  have g2 := h4 _ h1
  rw [hc'] at g2 e2
  rw [sum_bowPicked]
  rw [abs_le] at e1 e2 ⊢
  constructor <;> linarith [e1.1, e1.2, e2.1, e2.2]

end Fp
end Verif
