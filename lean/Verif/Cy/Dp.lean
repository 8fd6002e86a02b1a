import Verif.Cy.Lemmas

/-!
# The dynamic programme on the heap
-/

namespace Verif
namespace Cy

open Fp

variable {R : Rounding} {base : List (Option Block)} {c : ℕ}

theorem pick_eq (a b d : ℚ) : pick a b d = min (min a b) d := by
  unfold pick
  split_ifs with h1 h2
  · rw [min_eq_left h1.1, min_eq_left h1.2]
  · rw [min_eq_right h2.1, min_eq_left h2.2]
  · rw [eq_comm, min_eq_right_iff, le_min_iff]
    constructor
    · by_contra h
      push Not at h
      by_cases h3 : a ≤ b
      · exact h1 ⟨h3, h.le⟩
      · push Not at h3
        exact h2 ⟨h3.le, by linarith⟩
    · by_contra h
      push Not at h
      by_cases h3 : b ≤ a
      · exact h2 ⟨h3, h.le⟩
      · push Not at h3
        exact h1 ⟨h3.le, by linarith⟩

/-- Entries `0..t` of the block hold the values of row `i`. -/
def RowB (R : Rounding) (x y : List ℚ) (i t : ℕ) (b : Block) : Prop :=
  b.length = y.length + 1 ∧ ∀ s, s ≤ t → b[s]? = some (some (dpValF R x y i s))

/-- The blocks of the two arrays and the two rows. -/
structure Lay (l : List (Option Block)) (xs ys : List ℚ) (kx ky kp kc : ℕ) (bp bc : Block) : Prop where
  x : l[kx]? = some (some (xs.map some))
  y : l[ky]? = some (some (ys.map some))
  p : l[kp]? = some (some bp)
  c : l[kc]? = some (some bc)
  xc : kx ≠ kc
  yc : ky ≠ kc
  xp : kx ≠ kp
  yp : ky ≠ kp
  pc : kp ≠ kc

theorem Lay.set {l : List (Option Block)} {xs ys : List ℚ} {kx ky kp kc : ℕ} {bp bc : Block}
    (h : Lay l xs ys kx ky kp kc bp bc) (b : Block) :
    Lay (l.set kc (some b)) xs ys kx ky kp kc bp b := by
  have hc : kc < l.length := (List.getElem?_eq_some_iff.1 h.c).1
  exact ⟨by rw [List.getElem?_set_ne h.xc.symm]; exact h.x,
    by rw [List.getElem?_set_ne h.yc.symm]; exact h.y,
    by rw [List.getElem?_set_ne h.pc.symm]; exact h.p, by simp [hc], h.xc, h.yc, h.xp, h.yp, h.pc⟩

theorem Lay.swap {l : List (Option Block)} {xs ys : List ℚ} {kx ky kp kc : ℕ} {bp bc : Block}
    (h : Lay l xs ys kx ky kp kc bp bc) : Lay l xs ys kx ky kc kp bc bp :=
  ⟨h.x, h.y, h.c, h.p, h.xp, h.yp, h.xc, h.yc, h.pc.symm⟩

theorem cell_ok {l : List (Option Block)} {xs ys : List ℚ} {kx ky kp kc i j : ℕ} {bp bc : Block}
    (h : Lay l xs ys kx ky kp kc bp bc) (hi : i < xs.length) (hj : j < ys.length)
    (hp' : RowB R xs ys i ys.length bp) (hc' : RowB R xs ys (i + 1) j bc) :
    ∃ b, (cell R (some (base.length + kx)) (some (base.length + ky)) (some (base.length + kp))
        (some (base.length + kc)) (1 + i) (1 + j)).run (hp base l c) =
        (.ok (), hp base (l.set kc (some b)) c) ∧ RowB R xs ys (i + 1) (j + 1) b := by
  have h1 := hp'.2 j (by omega)
  have h2 := hp'.2 (1 + j) (by omega)
  have h3 := hc'.2 j le_rfl
  have hl : 1 + j < List.length bc := by rw [hc'.1]; omega
  refine ⟨List.set bc (1 + j) (some (dpValF R xs ys (i + 1) (j + 1))), ?_, ?_, ?_⟩
  · unfold cell
    rw [bind_ok (load_ok_pred (v := xs[i]) h.x (by simp [hi])),
      bind_ok (load_ok_pred (v := ys[j]) h.y (by simp [hj])), bind_ok (load_ok_pred h.p h1),
      bind_ok (load_ok h.p h2), bind_ok (load_ok_pred h.c h3), store_ok h.c hl, pick_eq,
      dpValF_succ R xs ys hi hj, Nat.add_comm 1 j]
  · simpa using hc'.1
  · intro s hs
    by_cases e : s = 1 + j
    · subst e
      rw [List.getElem?_set_self hl, Nat.add_comm 1 j]
    · rw [List.getElem?_set_ne (by omega)]
      exact hc'.2 s (by omega)

theorem inner_ok {l : List (Option Block)} {xs ys : List ℚ} {kx ky kp kc i : ℕ} {bp bc : Block}
    (h : Lay l xs ys kx ky kp kc bp bc) (hi : i < xs.length)
    (hp' : RowB R xs ys i ys.length bp) (hc' : RowB R xs ys (i + 1) 0 bc) :
    ∀ t, t ≤ ys.length →
      ∃ b, (foldM (fun _ j => cell R (some (base.length + kx)) (some (base.length + ky))
          (some (base.length + kp)) (some (base.length + kc)) (1 + i) j) ()
          (List.range' 1 t)).run (hp base l c) =
        (.ok (), hp base (l.set kc (some b)) c) ∧ RowB R xs ys (i + 1) t b := by
  intro t
  induction t with
  | zero =>
    intro _
    exact ⟨bc, by rw [set_same h.c]; rfl, hc'⟩
  | succ t ih =>
    intro ht
    obtain ⟨b, e, hb⟩ := ih (by omega)
    obtain ⟨b', e', hb'⟩ := cell_ok (R := R) (base := base) (c := c) (h.set b) hi
      (show t < ys.length by omega) hp' hb
    refine ⟨b', ?_, hb'⟩
    rw [List.range'_concat, foldM_snoc_ok e, Nat.one_mul, e', List.set_set]

theorem row_ok {l : List (Option Block)} {xs ys : List ℚ} {kx ky kp kc i : ℕ} {bp bc : Block}
    (h : Lay l xs ys kx ky kp kc bp bc) (hi : i < xs.length)
    (hp' : RowB R xs ys i ys.length bp) (hc' : List.length bc = ys.length + 1) :
    ∃ b, (row R (some (base.length + kx)) (some (base.length + ky)) ys.length
        (some (base.length + kp), some (base.length + kc)) (1 + i)).run (hp base l c) =
        (.ok (some (base.length + kc), some (base.length + kp)),
          hp base (l.set kc (some b)) c) ∧ RowB R xs ys (i + 1) ys.length b := by
  have hc0 : RowB R xs ys (i + 1) 0 (List.set bc 0 (some (R.fl ((1 + i : ℕ) : ℚ)))) := by
    refine ⟨by simpa using hc', ?_⟩
    intro s hs
    obtain rfl : s = 0 := by omega
    rw [dpValF_zero_right R xs ys (by omega), List.getElem?_set_self (by omega), Nat.add_comm 1 i]
  obtain ⟨b, e, hb⟩ := inner_ok (R := R) (base := base) (c := c) (h.set _) hi hp' hc0 ys.length le_rfl
  refine ⟨b, ?_, hb⟩
  unfold row
  have s0 : (store (some (base.length + kc)) 0 (R.fl ((1 + i : ℕ) : ℚ))).run (hp base l c) =
      (.ok (), hp base (l.set kc (some (List.set bc 0 (some (R.fl ((1 + i : ℕ) : ℚ)))))) c) :=
    store_ok (i := 0) h.c (by omega)
  refine (bind_ok s0).trans ((bind_ok e).trans ?_)
  rw [List.set_set]
  rfl

theorem outer_ok {l : List (Option Block)} {xs ys : List ℚ} {kx ky kp kc : ℕ} {bp bc : Block}
    (h : Lay l xs ys kx ky kp kc bp bc)
    (hp' : RowB R xs ys 0 ys.length bp) (hc' : List.length bc = ys.length + 1) :
    ∀ t, t ≤ xs.length → ∃ l' pa pb ba bb,
      ((pa = kp ∧ pb = kc) ∨ (pa = kc ∧ pb = kp)) ∧ l'.length = l.length ∧
      (foldM (row R (some (base.length + kx)) (some (base.length + ky)) ys.length)
        (some (base.length + kp), some (base.length + kc)) (List.range' 1 t)).run (hp base l c) =
        (.ok (some (base.length + pa), some (base.length + pb)), hp base l' c) ∧
      Lay l' xs ys kx ky pa pb ba bb ∧ RowB R xs ys t ys.length ba ∧
      List.length bb = ys.length + 1 := by
  intro t
  induction t with
  | zero =>
    intro _
    exact ⟨l, kp, kc, bp, bc, .inl ⟨rfl, rfl⟩, rfl, rfl, h, hp', hc'⟩
  | succ t ih =>
    intro ht
    obtain ⟨l', pa, pb, ba, bb, hpp, hl, e, hL, hr, hbb⟩ := ih (by omega)
    obtain ⟨b, e', hb⟩ := row_ok (R := R) (base := base) (c := c) hL (show t < xs.length by omega)
      hr hbb
    refine ⟨l'.set pb (some b), pb, pa, b, ba, ?_, by simpa using hl, ?_, (hL.set b).swap, hb, hr.1⟩
    · rcases hpp with ⟨rfl, rfl⟩ | ⟨rfl, rfl⟩
      · exact .inr ⟨rfl, rfl⟩
      · exact .inl ⟨rfl, rfl⟩
    · rw [List.range'_concat, foldM_snoc_ok e, Nat.one_mul, e']

/-- The initialisation of the first row. -/
theorem init_ok {l : List (Option Block)} {k m : ℕ} {b : Block} (h : l[k]? = some (some b))
    (hb : List.length b = m + 1) :
    ∀ t, t ≤ m + 1 → ∃ b', (foldM (fun _ j => store (some (base.length + k)) j (R.fl (j : ℚ))) ()
        (List.range t)).run (hp base l c) = (.ok (), hp base (l.set k (some b')) c) ∧
      List.length b' = m + 1 ∧ ∀ s, s < t → b'[s]? = some (some (R.fl (s : ℚ))) := by
  intro t
  have hk : k < l.length := (List.getElem?_eq_some_iff.1 h).1
  induction t with
  | zero => exact fun _ => ⟨b, by rw [set_same h]; rfl, hb, by simp⟩
  | succ t ih =>
    intro ht
    obtain ⟨b', e, hl, hv⟩ := ih (by omega)
    refine ⟨List.set b' t (some (R.fl (t : ℚ))), ?_, by simpa using hl, ?_⟩
    · rw [List.range_succ, foldM_snoc_ok e, store_ok (b := b') (by simp [hk]) (by omega),
        List.set_set]
    · intro s hs
      by_cases he : s = t
      · subst he
        rw [List.getElem?_set_self (by omega)]
      · rw [List.getElem?_set_ne (by omega)]
        exact hv s (by omega)

theorem freeXY_ok {l : List (Option Block)} {swapped : Bool} {kx ky : ℕ} {bx by' : Block}
    (hx : l[kx]? = some (some bx)) (hy : l[ky]? = some (some by')) (hne : kx ≠ ky) :
    (freeXY swapped (some (base.length + kx)) (some (base.length + ky))).run (hp base l c) =
      (.ok (), hp base ((l.set kx none).set ky none) c) := by
  unfold freeXY
  cases swapped with
  | true =>
    rw [if_pos rfl, bind_ok (freeIf_ok hy), freeIf_ok (b := bx) (by
      rw [List.getElem?_set_ne hne.symm]; exact hx), List.set_comm _ _ hne]
  | false =>
    rw [if_neg (by simp), bind_ok (freeIf_ok hx), freeIf_ok (b := by') (by
      rw [List.getElem?_set_ne hne]; exact hy)]

/-- From the allocation of the rows on: the result is the value of the recursion, or `MemoryError`
if a row could not be allocated; all four blocks have been freed. -/
theorem dp_spec {env : Env} {swapped : Bool} {l : List (Option Block)} {xs ys : List ℚ} {kx ky : ℕ}
    (hl : l.length = 2) (hk : (kx = 0 ∧ ky = 1) ∨ (kx = 1 ∧ ky = 0))
    (hx : l[kx]? = some (some (xs.map some))) (hy : l[ky]? = some (some (ys.map some))) :
    ∃ ext, (∀ b ∈ ext, b = none) ∧
      ((dp R env swapped (some (base.length + kx)) (some (base.length + ky)) xs.length
          ys.length).run (hp base l c) =
        (if env.mallocOk c (ys.length + 1) = true ∧ env.mallocOk (c + 1) (ys.length + 1) = true
          then .ok (alignF R xs.reverse ys.reverse) else .error (.exc .memoryError),
          hp base ext (c + 2))) := by
  have hne : kx ≠ ky := by omega
  have hkx : kx < 2 := by omega
  have hky : ky < 2 := by omega
  have hnone : ∀ l' : List (Option Block), l'.length = 2 →
      ∀ b ∈ (l'.set kx none).set ky none, b = none := by
    intro l' hl' b hb
    obtain ⟨a, d, rfl⟩ := List.length_eq_two.1 hl'
    rcases hk with ⟨rfl, rfl⟩ | ⟨rfl, rfl⟩ <;> simpa using hb
  unfold dp
  cases h1 : env.mallocOk c (ys.length + 1) with
  | false =>
    rw [bind_ok (malloc_fail h1)]
    cases h2 : env.mallocOk (c + 1) (ys.length + 1) with
    | false =>
      rw [bind_ok (malloc_fail h2)]
      simp only [Option.isNone_none, Bool.or_self, if_true]
      rw [bind_ok (show (freeIf none).run _ = _ from rfl),
        bind_ok (show (freeIf none).run _ = _ from rfl), bind_ok (freeXY_ok hx hy hne)]
      exact ⟨_, hnone l hl, rfl⟩
    | true =>
      rw [bind_ok (malloc_ok h2), hl]
      simp only [Option.isNone_none, Bool.true_or, if_true]
      rw [bind_ok (show (freeIf none).run _ = _ from rfl),
        bind_ok (freeIf_ok (k := 2) (b := List.replicate (ys.length + 1) none) (by simp [hl])),
        List.set_append_right _ _ (by omega), hl, bind_ok (freeXY_ok
          (by rw [List.getElem?_append_left (by omega)]; exact hx)
          (by rw [List.getElem?_append_left (by omega)]; exact hy) hne)]
      refine ⟨_, ?_, rfl⟩
      intro b hb
      rw [List.set_append_left _ _ (by omega),
        List.set_append_left _ _ (by rw [List.length_set]; omega)] at hb
      rcases List.mem_append.1 hb with hb | hb
      · exact hnone l hl b hb
      · simpa using hb
  | true =>
    rw [bind_ok (malloc_ok h1)]
    cases h2 : env.mallocOk (c + 1) (ys.length + 1) with
    | false =>
      rw [bind_ok (malloc_fail h2), hl]
      simp only [Option.isNone_none, Bool.or_true, if_true]
      rw [bind_ok (freeIf_ok (k := 2) (b := List.replicate (ys.length + 1) none) (by simp [hl])),
        List.set_append_right _ _ (by omega), hl, bind_ok (show (freeIf none).run _ = _ from rfl),
        bind_ok (freeXY_ok
          (by rw [List.getElem?_append_left (by omega)]; exact hx)
          (by rw [List.getElem?_append_left (by omega)]; exact hy) hne)]
      refine ⟨_, ?_, rfl⟩
      intro b hb
      rw [List.set_append_left _ _ (by omega),
        List.set_append_left _ _ (by rw [List.length_set]; omega)] at hb
      rcases List.mem_append.1 hb with hb | hb
      · exact hnone l hl b hb
      · simpa using hb
    | true =>
      rw [bind_ok (malloc_ok h2)]
      simp only [Option.isNone_some, Bool.or_self, Bool.false_eq_true, if_false, List.length_append,
        List.length_cons, List.length_nil, hl]
      obtain ⟨b0, e0, hb0, hv0⟩ := init_ok (R := R) (base := base) (c := c + 1 + 1)
        (l := l ++ [some (List.replicate (ys.length + 1) none)] ++
          [some (List.replicate (ys.length + 1) none)]) (k := 2) (m := ys.length)
        (b := List.replicate (ys.length + 1) none) (by simp [hl]) (by simp) (ys.length + 1) le_rfl
      rw [bind_ok e0]
      have hL : Lay ((l ++ [some (List.replicate (ys.length + 1) none)] ++
          [some (List.replicate (ys.length + 1) none)]).set 2 (some b0)) xs ys kx ky 2 3 b0
          (List.replicate (ys.length + 1) none) := by
        refine ⟨?_, ?_, ?_, ?_, by omega, by omega, by omega, by omega, by omega⟩
        · rw [List.getElem?_set_ne (by omega), List.append_assoc,
            List.getElem?_append_left (by omega)]
          exact hx
        · rw [List.getElem?_set_ne (by omega), List.append_assoc,
            List.getElem?_append_left (by omega)]
          exact hy
        · simp [hl]
        · rw [List.getElem?_set_ne (by omega), List.getElem?_append_right (by simp [hl])]
          simp [hl]
      have hr0 : RowB R xs ys 0 ys.length b0 := by
        refine ⟨hb0, fun s hs => ?_⟩
        rw [dpValF_zero_left R xs ys hs]
        exact hv0 s (by omega)
      obtain ⟨l', pa, pb, ba, bb, hpp, hll, e1, hL', hr', hbb⟩ := outer_ok (R := R) (base := base)
        (c := c + 1 + 1) hL hr0 (by simp) xs.length le_rfl
      have hlast := hr'.2 ys.length le_rfl
      rw [show 2 + (0 + 1) = 3 from rfl, bind_ok e1, bind_ok (load_ok hL'.p hlast),
        bind_ok (freeIf_ok hL'.p), bind_ok (freeIf_ok (k := pb) (b := bb) (by
          rw [List.getElem?_set_ne hL'.pc]; exact hL'.c)), bind_ok (freeXY_ok (kx := kx) (ky := ky)
          (bx := xs.map some) (by' := ys.map some) (by
            rw [List.getElem?_set_ne hL'.xc.symm, List.getElem?_set_ne hL'.xp.symm]; exact hL'.x)
          (by rw [List.getElem?_set_ne hL'.yc.symm, List.getElem?_set_ne hL'.yp.symm]; exact hL'.y)
          hne)]
      refine ⟨(((l'.set pa none).set pb none).set kx none).set ky none, ?_, ?_⟩
      · have h4 : l'.length = 4 := by rw [hll]; simp [hl]
        obtain ⟨a1, a2, a3, a4, rfl⟩ : ∃ a1 a2 a3 a4, l' = [a1, a2, a3, a4] := by
          match l', h4 with
          | [a1, a2, a3, a4], _ => exact ⟨_, _, _, _, rfl⟩
        intro b hb
        rcases hpp with ⟨rfl, rfl⟩ | ⟨rfl, rfl⟩ <;> rcases hk with ⟨rfl, rfl⟩ | ⟨rfl, rfl⟩ <;>
          simpa using hb
      · simp only [and_self, if_true]
        unfold dpValF
        rw [List.take_length, List.take_length]
        rfl

end Cy
end Verif
