import Verif.Fp.VarRange

/-!
# Bounds and invariances of the whole functions
-/

namespace Verif
namespace Fp

open EmdSpec

variable {R : Rounding}

/-! ## Bounds -/

/-- The bounds after the last component and the points after it. -/
theorem main_bnd {xs ys : List ℚ} (hN : xs.length + ys.length ≤ 2 ^ 53)
    {d e v : ℚ} {s : ℕ} (h1 : s ≤ (locations xs ys).length) (hb : AccBnd (locations xs ys) s d e)
    (h3 : ∀ (i : ℕ) (a : ℚ), s ≤ i → (locations xs ys)[i]? ≠ some (a, true))
    (hv : v = if (locations xs ys).length > s then
      R.fl (d + (((locations xs ys).length : ℚ) - s)) else d) :
    ((xs.length - ys.length : ℕ) : ℚ) ≤ v ∧ v ≤ xs.length := by
  have px := (xsOf_locations xs ys).length_eq
  have py := (ysOf_locations xs ys).length_eq
  have hlen : (locations xs ys).length = xs.length + ys.length := by
    rw [(locations_perm xs ys).length_eq]; simp
  generalize locations xs ys = L at *
  have g := noY_ysOf (L := L) (s := s) (l := L.length) (fun i a hi _ => h3 i a hi)
  rw [List.take_length] at g
  have g2 := xsOf_add_ysOf (L.drop s)
  rw [g, List.length_drop, List.length_nil, Nat.add_zero] at g2
  have e1 : xsOf L = xsOf (L.take s) ++ xsOf (L.drop s) := by
    rw [← xsOf_append, List.take_append_drop]
  have e2 : ysOf L = ysOf (L.take s) ++ ysOf (L.drop s) := by
    rw [← ysOf_append, List.take_append_drop]
  rw [e1, List.length_append, g2] at px
  rw [e2, List.length_append, g, List.length_nil] at py
  obtain ⟨b1, b2⟩ := hb
  have q := Nat.cast_sub (R := ℚ) h1
  rw [hv]
  split_ifs with c
  · rw [← q]
    refine ⟨nat_le_fl (by omega) (le_trans ?_ (add_le_add b1 le_rfl)),
      fl_le_nat (by omega) ((add_le_add b2 le_rfl).trans ?_)⟩
    · rw [← Nat.cast_add]; exact_mod_cast (by omega)
    · rw [← Nat.cast_add]; exact_mod_cast (by omega)
  · exact ⟨le_trans (by exact_mod_cast (by omega)) b1, b2.trans (by exact_mod_cast (by omega))⟩

theorem hybridMainF_bnd {xs ys : List ℚ} (hs : Spread1 xs ys)
    (hl : ys.length ≤ xs.length) (hN : xs.length + ys.length ≤ 2 ^ 53) {v : ℚ}
    (hv : hybridMainF R xs ys = .ok v) :
    ((xs.length - ys.length : ℕ) : ℚ) ≤ v ∧ v ≤ xs.length := by
  have px := xsOf_locations xs ys
  have py := ysOf_locations xs ys
  have hlen : (locations xs ys).length = xs.length + ys.length := by
    rw [(locations_perm xs ys).length_eq]; simp
  obtain ⟨Q, eQ, hQ⟩ := componentRanges_ok (locations xs ys)
  obtain ⟨d, s, e, eq, h1, hb, -, h3⟩ := processRanges_rel (locations_sorted xs ys)
    (by rw [px.length_eq, py.length_eq]; exact hl) hQ
    (hybridComponentF_bnd (R := R) (hs.mono px.subset py.subset) (by omega))
    ⟨by simp, by simp⟩
  refine main_bnd (R := R) hN h1 hb h3 ?_
  unfold hybridMainF at hv
  simp only [eQ, eq, bind, Except.bind] at hv
  split_ifs at hv ⊢ with h
  · rw [countX_gap h1 (le_refl _) (fun i a hi _ => h3 i a hi), Nat.cast_sub h1] at hv
    injection hv with hv
    exact hv.symm
  · injection hv with hv
    exact hv.symm

theorem oldMainF_bnd (hu : R.u ≤ 1 / 2) {xs ys : List ℚ} (hs : Spread1 xs ys)
    (hl : ys.length ≤ xs.length) (hN : xs.length + ys.length + 1 ≤ 2 ^ 53)
    (hM : ((xs.length + ys.length : ℕ) : ℕ∞) ≤ R.sumMax) {v : ℚ} (hv : oldMainF R xs ys = .ok v) :
    ((xs.length - ys.length : ℕ) : ℚ) ≤ v ∧ v ≤ xs.length := by
  have px := xsOf_locations xs ys
  have py := ysOf_locations xs ys
  have hlen : (locations xs ys).length = xs.length + ys.length := by
    rw [(locations_perm xs ys).length_eq]; simp
  obtain ⟨Q, eQ, hQ⟩ := componentRanges_ok (locations xs ys)
  obtain ⟨d, s, e, eq, h1, ⟨-, hb⟩, -, h3⟩ := processRanges_rel (locations_sorted xs ys)
    (by rw [px.length_eq, py.length_eq]; exact hl) hQ
    (oldComponentF_bnd (R := R) hu (locations_sorted xs ys) (hs.mono px.subset py.subset) (by omega)
      (by rwa [hlen]))
    ⟨⟨Rel.refl.mono (by omega) (by positivity) (by simp), le_rfl, le_rfl⟩, by simp, by simp⟩
  refine main_bnd (R := R) (by omega) h1 hb h3 ?_
  unfold oldMainF at hv
  simp only [eQ, eq, bind, Except.bind] at hv
  split_ifs at hv ⊢ with h <;>
  · injection hv with hv
    exact hv.symm

theorem emdShellF_bnd {main : List ℚ → List ℚ → Except PyErr ℚ} {M : ℕ} (hM : (M : ℕ∞) ≤ R.sumMax)
    (hmain : ∀ xs ys v, Spread1 xs ys → ys.length ≤ xs.length → xs.length + ys.length + 1 ≤ 2 ^ 53 →
      xs.length + ys.length ≤ M → main xs ys = .ok v → ((xs.length - ys.length : ℕ) : ℚ) ≤ v ∧ v ≤ xs.length)
    {xs ys : List ℚ} (hs : Spread1 xs ys) (hN : xs.length + ys.length + 1 ≤ 2 ^ 53)
    (hNM : xs.length + ys.length ≤ M) {v : ℚ} (hv : emdShellF R main xs ys = .ok v) :
    |(xs.length : ℚ) - ys.length| ≤ v ∧ v ≤ max (xs.length : ℚ) ys.length := by
  have key : ∀ xs ys : List ℚ, Spread1 xs ys → ys.length ≤ xs.length →
      xs.length + ys.length + 1 ≤ 2 ^ 53 → xs.length + ys.length ≤ M → ∀ v,
      (match ys with
        | [] => (.ok (R.fl xs.length) : Except PyErr ℚ)
        | [y] => singleCostF R xs y
        | _ =>
          let xs := pySorted xs
          let ys := pySorted ys
          if xs.length = ys.length then .ok (zipCostF R xs.reverse ys.reverse)
          else
            let r := removeCommon xs ys
            match r.2 with
            | [] => .ok (R.fl r.1.length)
            | [y] => singleCostF R r.1 y
            | _ => main r.1 r.2) = .ok v →
      ((xs.length - ys.length : ℕ) : ℚ) ≤ v ∧ v ≤ xs.length := by
    intro xs ys hs hl hN hNM v hv
    match ys, hs, hl, hN, hNM, hv with
    | [], _, _, hN, _, hv =>
      injection hv with hv
      rw [← hv, R.nat _ (by simp at hN; omega)]
      simp
    | [y], hs, hl, hN, _, hv =>
      obtain ⟨_, a, b⟩ := singleCostF_bnd hs (by simp at hN; omega) hv
      exact ⟨a, b⟩
    | y :: y' :: ys, hs, hl, hN, hNM, hv =>
      simp only at hv
      generalize y :: y' :: ys = zs at *
      have hss := hs.sorted
      split_ifs at hv with h
      · injection hv with hv
        rw [length_pySorted, length_pySorted] at h
        have := zipCostF_le (R := R) (hss.reverse) (by simp [length_pySorted]; omega)
          (le_trans (Nat.cast_le.2 (by simp [length_pySorted]; omega)) hM)
        rw [hv, List.length_reverse, length_pySorted] at this
        refine ⟨?_, this⟩
        rw [h, Nat.sub_self, ← hv]
        simpa using (rel_zipCost hM (by simp [length_pySorted]; omega)).2
      · obtain ⟨C, p1, p2, s1, s2⟩ := removeCommon_perm (pySorted xs) (pySorted zs)
        have hsr := hss.mono s1.subset s2.subset
        have l1 := p1.length_eq
        have l2 := p2.length_eq
        simp only [length_pySorted, List.length_append] at l1 l2
        generalize removeCommon (pySorted xs) (pySorted zs) = r at *
        obtain ⟨r1, r2⟩ := r
        simp only at l1 l2 hsr hv
        suffices hh : ((r1.length - r2.length : ℕ) : ℚ) ≤ v ∧ v ≤ r1.length by
          rw [show xs.length - zs.length = r1.length - r2.length by omega]
          exact ⟨hh.1, hh.2.trans (by exact_mod_cast (by omega))⟩
        have hlr : r2.length ≤ r1.length := by omega
        match r2, hsr, hlr, l2, hv with
        | [], _, _, _, hv =>
          injection hv with hv
          rw [← hv, R.nat _ (by omega)]
          simp
        | [y], hs, hl, l2, hv =>
          obtain ⟨_, a, b⟩ := singleCostF_bnd hs (by omega) hv
          exact ⟨a, b⟩
        | y :: y' :: ys, hs, hl, l2, hv => exact hmain r1 _ v hs hl (by omega) (by omega) hv
  unfold emdShellF at hv
  have fin : ∀ {a b : ℕ} {v : ℚ}, b ≤ a → ((a - b : ℕ) : ℚ) ≤ v ∧ v ≤ a →
      |(a : ℚ) - b| ≤ v ∧ v ≤ max (a : ℚ) b := by
    intro a b v hab h
    have : (b : ℚ) ≤ a := by exact_mod_cast hab
    rw [abs_of_nonneg (by linarith), ← Nat.cast_sub hab]
    exact ⟨h.1, h.2.trans (le_max_left _ _)⟩
  by_cases h : xs.length < ys.length
  · rw [if_pos h] at hv
    have := fin h.le (key ys xs hs.symm h.le (by omega) (by omega) v hv)
    rwa [abs_sub_comm, max_comm] at this
  · rw [if_neg h] at hv
    exact fin (not_lt.1 h) (key xs ys hs (not_lt.1 h) hN hNM v hv)

theorem emdSlowF_bnd {xs ys : List ℚ} (hN : xs.length + ys.length ≤ 2 ^ 53)
    (hM : ((xs.length + ys.length : ℕ) : ℕ∞) ≤ R.sumMax) {v : ℚ} (hv : emdSlowF R xs ys = .ok v) :
    |(xs.length : ℚ) - ys.length| ≤ v ∧ v ≤ max (xs.length : ℚ) ys.length := by
  have key : ∀ {xs ys : List ℚ} {v : ℚ}, ys.length ≤ xs.length → xs.length + ys.length ≤ 2 ^ 53 →
      ((ys.length : ℕ) : ℕ∞) ≤ R.sumMax →
      (do
        let m ← pyMin (comboCostsF R (pySorted xs) (pySorted ys))
        return R.fl ((xs.length : ℚ) - ys.length + m)) = Except.ok v →
      |(xs.length : ℚ) - ys.length| ≤ v ∧ v ≤ max (xs.length : ℚ) ys.length := by
    intro xs ys v hl hN hM h
    cases em : pyMin (comboCostsF R (pySorted xs) (pySorted ys)) with
    | error _ => simp [em, bind, Except.bind] at h
    | ok m =>
      simp only [em, bind, Except.bind, pure, Except.pure, Except.ok.injEq] at h
      have m1 := comboCostsF_bnd em
      rw [length_pySorted] at m1
      have m0 : 0 ≤ m := by
        have hmem := pyMin_mem em
        unfold comboCostsF at hmem
        rcases List.mem_cons.1 hmem with rfl | hmem
        · positivity
        · obtain ⟨c, _, rfl⟩ := List.mem_map.1 hmem
          exact (rel_zipCost hM (by rw [length_pySorted]; exact min_le_right _ _)).2
      have hab : (ys.length : ℚ) ≤ xs.length := by exact_mod_cast hl
      rw [abs_of_nonneg (by linarith), ← Nat.cast_sub hl, ← h, max_eq_left hab]
      exact ⟨nat_le_fl (by omega) (by rw [Nat.cast_sub hl]; linarith),
        fl_le_nat (by omega) (by linarith)⟩
  unfold emdSlowF at hv
  by_cases h : xs.length < ys.length
  · simp only [if_pos h, length_pySorted] at hv
    have := key h.le (by omega) (le_trans (Nat.cast_le.2 (by omega)) hM) hv
    rwa [abs_sub_comm, max_comm] at this
  · simp only [if_neg h, length_pySorted] at hv
    exact key (not_lt.1 h) hN (le_trans (Nat.cast_le.2 (by omega)) hM) hv

/-! ## Order of arguments and of points -/

theorem zipCostF_comm (xs ys : List ℚ) : zipCostF R xs ys = zipCostF R ys xs := by
  unfold zipCostF
  congr 1
  induction xs generalizing ys with
  | nil => cases ys <;> simp
  | cons x xs ih =>
    cases ys with
    | nil => simp
    | cons y ys => simp only [List.zipWith_cons_cons, ih ys, abs_fl_sub_comm]

theorem combinations_self (xs : List ℚ) : combinations xs.length xs = [xs] := by
  have too : ∀ (xs : List ℚ) (n : ℕ), xs.length < n → combinations n xs = [] := by
    intro xs n h
    rw [List.eq_nil_iff_forall_not_mem]
    intro c hc
    obtain ⟨h1, h2⟩ := mem_combinations.1 hc
    have := h1.length_le
    omega
  induction xs with
  | nil => simp [combinations]
  | cons x xs ih =>
    simp only [List.length_cons, combinations, ih, too xs (xs.length + 1) (by omega)]
    simp

theorem comboCostsF_comm {xs ys : List ℚ} (h : xs.length = ys.length) :
    comboCostsF R xs ys = comboCostsF R ys xs := by
  unfold comboCostsF
  have h1 := combinations_self xs
  have h2 := combinations_self ys
  rw [h] at h1
  rw [← h] at h2
  rw [h1, h2, h]
  simp [zipCostF_comm]

theorem pyMin_le {l : List ℚ} {m b : ℚ} (h : pyMin l = .ok m) (hb : b ∈ l) : m ≤ b := by
  have : ∀ (l : List ℚ) (a : ℚ), ∀ b ∈ a :: l, l.foldl min a ≤ b := by
    intro l
    induction l with
    | nil => intro a b hb; simp at hb; rw [hb]; exact le_rfl
    | cons c l ih =>
      intro a b hb
      simp only [List.foldl_cons]
      rcases List.mem_cons.1 hb with rfl | hb
      · exact (ih _ _ (List.mem_cons_self ..)).trans (min_le_left _ _)
      · rcases List.mem_cons.1 hb with rfl | hb
        · exact (ih _ _ (List.mem_cons_self ..)).trans (min_le_right _ _)
        · exact ih _ _ (List.mem_cons_of_mem _ hb)
  cases l with
  | nil => simp [pyMin] at h
  | cons a l =>
    simp only [pyMin, Except.ok.injEq] at h
    rw [← h]
    exact this l a b hb

theorem singleCostF_perm {xs xs' : List ℚ} (h : xs.Perm xs') (y : ℚ) :
    singleCostF R xs y = singleCostF R xs' y := by
  have key : pyMin (xs.map (fun x => |R.fl (x - y)|)) = pyMin (xs'.map (fun x => |R.fl (x - y)|)) := by
    have hp := h.map (fun x => |R.fl (x - y)|)
    generalize xs.map (fun x => |R.fl (x - y)|) = l at *
    generalize xs'.map (fun x => |R.fl (x - y)|) = l' at *
    cases e : pyMin l with
    | error err =>
      cases l with
      | nil => rw [← hp.nil_eq]; exact e.symm
      | cons a l => simp [pyMin] at e
    | ok m =>
      symm
      refine pyMin_eq (hp.subset (pyMin_mem e)) ?_
      intro b hb
      exact pyMin_le e (hp.symm.subset hb)
  unfold singleCostF
  rw [key, h.length_eq]

theorem emdSlowF_perm {xs xs' ys ys' : List ℚ} (hx : xs.Perm xs') (hy : ys.Perm ys') :
    emdSlowF R xs ys = emdSlowF R xs' ys' := by
  unfold emdSlowF
  rw [hx.length_eq, hy.length_eq]
  by_cases h : xs'.length < ys'.length
  · simp only [if_pos h, pySorted_congr hx, pySorted_congr hy]
  · simp only [if_neg h, pySorted_congr hx, pySorted_congr hy]

theorem emdSlowF_comm (xs ys : List ℚ) : emdSlowF R xs ys = emdSlowF R ys xs := by
  unfold emdSlowF
  rcases lt_trichotomy xs.length ys.length with h | h | h
  · simp only [if_pos h, if_neg (by omega : ¬ ys.length < xs.length)]
  · simp only [if_neg (by omega : ¬ ys.length < xs.length), if_neg (by omega : ¬ xs.length < ys.length)]
    rw [comboCostsF_comm (by simpa [length_pySorted] using h), length_pySorted, length_pySorted, h]
  · simp only [if_pos h, if_neg (by omega : ¬ xs.length < ys.length)]

/-- `emdShellF` after the swap. -/
def shellBodyF (R : Rounding) (main : List ℚ → List ℚ → Except PyErr ℚ) (xs ys : List ℚ) :
    Except PyErr ℚ :=
  match ys with
  | [] => .ok (R.fl xs.length)
  | [y] => singleCostF R xs y
  | _ =>
    if (pySorted xs).length = (pySorted ys).length then
      .ok (zipCostF R (pySorted xs).reverse (pySorted ys).reverse)
    else
      match (removeCommon (pySorted xs) (pySorted ys)).2 with
      | [] => .ok (R.fl (removeCommon (pySorted xs) (pySorted ys)).1.length)
      | [y] => singleCostF R (removeCommon (pySorted xs) (pySorted ys)).1 y
      | _ => main (removeCommon (pySorted xs) (pySorted ys)).1
          (removeCommon (pySorted xs) (pySorted ys)).2

theorem emdShellF_eq (main : List ℚ → List ℚ → Except PyErr ℚ) (xs ys : List ℚ) :
    emdShellF R main xs ys = if xs.length < ys.length then shellBodyF R main ys xs
      else shellBodyF R main xs ys := by
  unfold emdShellF
  split_ifs <;> rfl

theorem shellBodyF_perm (main : List ℚ → List ℚ → Except PyErr ℚ) {xs xs' ys ys' : List ℚ}
    (hx : xs.Perm xs') (hy : ys.Perm ys') : shellBodyF R main xs ys = shellBodyF R main xs' ys' := by
  match ys, ys', hy with
  | [], ys', hy =>
    rw [← hy.nil_eq]
    unfold shellBodyF
    simp only [hx.length_eq]
  | [y], ys', hy =>
    rw [← List.singleton_perm.1 hy]
    unfold shellBodyF
    exact singleCostF_perm hx y
  | y :: y' :: ys, [], hy => exact absurd hy.length_eq (by simp)
  | y :: y' :: ys, [_], hy => exact absurd hy.length_eq (by simp)
  | y :: y' :: ys, z :: z' :: zs, hy =>
    unfold shellBodyF
    simp only [pySorted_congr hx, pySorted_congr hy]

theorem emdShellF_perm (main : List ℚ → List ℚ → Except PyErr ℚ) {xs xs' ys ys' : List ℚ}
    (hx : xs.Perm xs') (hy : ys.Perm ys') : emdShellF R main xs ys = emdShellF R main xs' ys' := by
  rw [emdShellF_eq, emdShellF_eq, hx.length_eq, hy.length_eq, shellBodyF_perm main hx hy,
    shellBodyF_perm main hy hx]

theorem singleCostF_comm (x y : ℚ) : singleCostF R [x] y = singleCostF R [y] x := by
  simp [singleCostF, abs_fl_sub_comm]

theorem shellBodyF_comm (main : List ℚ → List ℚ → Except PyErr ℚ) {xs ys : List ℚ}
    (h : xs.length = ys.length) : shellBodyF R main xs ys = shellBodyF R main ys xs := by
  match xs, ys, h with
  | [], [], _ => rfl
  | [x], [y], _ => exact singleCostF_comm x y
  | x :: x' :: xs, y :: y' :: ys, h =>
    unfold shellBodyF
    have h' : (pySorted (x :: x' :: xs)).length = (pySorted (y :: y' :: ys)).length := by
      rw [length_pySorted, length_pySorted, h]
    simp only [if_pos h', if_pos h'.symm, zipCostF_comm]

theorem emdShellF_comm (main : List ℚ → List ℚ → Except PyErr ℚ) (xs ys : List ℚ) :
    emdShellF R main xs ys = emdShellF R main ys xs := by
  rw [emdShellF_eq, emdShellF_eq]
  rcases lt_trichotomy xs.length ys.length with h | h | h
  · rw [if_pos h, if_neg (by omega)]
  · rw [if_neg (by omega), if_neg (by omega), shellBodyF_comm main h]
  · rw [if_neg (by omega), if_pos h]

theorem zipCostF_self (xs : List ℚ) : zipCostF R xs xs = 0 := by
  refine R.sum_zeros _ ?_
  intro v hv
  rw [List.zipWith_self] at hv
  obtain ⟨x, _, rfl⟩ := List.mem_map.1 hv
  rw [sub_self, fl_zero, abs_zero]

theorem emdShellF_self (main : List ℚ → List ℚ → Except PyErr ℚ) {xs ys : List ℚ}
    (h : xs.Perm ys) : emdShellF R main xs ys = .ok 0 := by
  rw [← emdShellF_perm main (List.Perm.refl xs) h, emdShellF_eq, if_neg (lt_irrefl _)]
  match xs with
  | [] => simp [shellBodyF, fl_zero]
  | [x] =>
    have : R.fl 1 = 1 := by simpa using R.nat 1 (by norm_num)
    simp [shellBodyF, singleCostF, pyMin, fl_zero, this, bind, Except.bind, pure, Except.pure]
  | x :: x' :: xs =>
    unfold shellBodyF
    simp only [if_true]
    rw [zipCostF_self]

end Fp
end Verif
