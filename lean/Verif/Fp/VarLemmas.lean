import Verif.Fp.VarGreedy

/-!
# The components and the whole functions in rounded arithmetic
-/

namespace Verif
namespace Fp

open EmdSpec

variable {R : Rounding}

theorem singleCostF_ok {xs : List ℚ} {y : ℚ} (hne : xs ≠ []) (hs : Spread1 xs [y]) :
    ∃ v, singleCostF R xs y = .ok v ∧ Rel R 3 1 v (emd xs [y]) ∧ 0 ≤ v := by
  have hlen : 1 ≤ xs.length := List.length_pos_iff.2 hne
  have hlq : (1 : ℚ) ≤ xs.length := by exact_mod_cast hlen
  have e := singleCost_eq hne hs.two
  unfold singleCost at e
  cases hm : pyMin (xs.map (fun x => |x - y|)) with
  | error _ => rw [hm] at e; cases e
  | ok m =>
    rw [hm] at e
    simp only [bind, Except.bind, pure, Except.pure, Except.ok.injEq] at e
    obtain ⟨m', e', h, hmem⟩ := Rel.pyMin (R := R) (k := 1) (f := fun x => |R.fl (x - y)|)
      (g := fun x => |x - y|) (l := xs) (fun x _ => rel_dist x y) hm
    have m0 : 0 ≤ m' := by
      obtain ⟨x, _, rfl⟩ := List.mem_map.1 hmem
      exact abs_nonneg _
    have h1 : Rel R 1 0 ((xs.length : ℕ) : ℚ) ((xs.length : ℕ) : ℚ) :=
      Rel.refl.mono (by omega) le_rfl (by positivity)
    have h2 := (h.add h1).fl (by positivity) (by simp)
    rw [add_zero] at h2
    have t1 : (1 : ℚ) ≤ R.fl (m' + xs.length) := by
      have := nat_le_fl (R := R) (x := m' + xs.length) (n := 1) (by norm_num) (by push_cast; linarith)
      simpa using this
    have h3 := (h2.sub (b := 1)).fl (by linarith) (by norm_num)
    refine ⟨R.fl (R.fl (m' + xs.length) - 1), ?_, ?_, fl_nonneg (by linarith)⟩
    · unfold singleCostF
      rw [e']; rfl
    · rw [← e]; exact h3

theorem comboCostsF_ok {xs ys : List ℚ} (hx : xs.Pairwise (· ≤ ·)) (hy : ys.Pairwise (· ≤ ·))
    (hs : Spread1 xs ys) (hl : ys.length ≤ xs.length) {M : ℕ} (hM : (M : ℕ∞) ≤ R.sumMax)
    (hyM : ys.length ≤ M) :
    ∃ m, pyMin (comboCostsF R xs ys) = .ok m ∧ 0 ≤ m ∧
      Rel R (ys.length + 1) 0 m (emd xs ys - ((xs.length : ℚ) - ys.length)) := by
  let f : Option (List ℚ) → ℚ := fun o =>
    match o with
    | none => ys.length
    | some c => zipCostF R c ys
  let g : Option (List ℚ) → ℚ := fun o =>
    match o with
    | none => ys.length
    | some c => zipCost c ys
  have hg : comboCosts xs ys = (none :: (combinations ys.length xs).map some).map g := by
    simp [comboCosts, g, Function.comp_def]
  have hf : comboCostsF R xs ys = (none :: (combinations ys.length xs).map some).map f := by
    simp [comboCostsF, f, Function.comp_def]
  have hm := pyMin_comboCosts hx hy hs hl
  rw [hg] at hm
  obtain ⟨m, e, h, hmem⟩ := Rel.pyMin (R := R) (k := ys.length + 1) (f := f) (g := g) (by
    intro o ho
    rcases List.mem_cons.1 ho with rfl | ho
    · exact Rel.refl.mono (by omega) le_rfl (by positivity)
    · obtain ⟨c, hc, rfl⟩ := List.mem_map.1 ho
      have hcl := (mem_combinations.1 hc).2
      have := (rel_zipCost hM (xs := c) (ys := ys) ((min_le_right _ _).trans hyM)).1
      rw [hcl, min_self] at this
      exact this) hm
  refine ⟨m, by rw [hf]; exact e, ?_, h⟩
  obtain ⟨o, _, rfl⟩ := List.mem_map.1 hmem
  cases o with
  | none => show (0 : ℚ) ≤ ys.length; positivity
  | some c => exact (rel_zipCost hM ((min_le_right _ _).trans hyM)).2

/-! ## Components -/

/-- Relation between the accumulated and the exact distance after `seen` points. -/
def Acc (R : Rounding) (w : ℚ) (L : List (ℚ × Bool)) (seen : ℕ) (d e : ℚ) : Prop :=
  Rel R (4 + 2 * seen) (w * (ysOf (L.take seen)).length) d e ∧ 0 ≤ d ∧ 0 ≤ e

theorem ysOf_take_add (L : List (ℚ × Bool)) {seen l r : ℕ} (h1 : seen ≤ l) (h2 : l ≤ r) :
    (ysOf (L.take seen)).length + (ysOf (seg L l r)).length ≤ (ysOf (L.take (r + 1))).length := by
  have e : L.take (r + 1) = (L.take (r + 1)).take l ++ seg L l r := by
    unfold seg; rw [List.take_append_drop]
  rw [e, ysOf_append, List.length_append, List.take_take, min_eq_left (by omega)]
  have : (L.take seen).Sublist (L.take l) := by
    have := List.take_sublist seen (L.take l)
    rwa [List.take_take, min_eq_left h1] at this
  have := ((this.filter (fun p => p.2)).map Prod.fst).length_le
  unfold ysOf
  omega

theorem seg_length {L : List (ℚ × Bool)} {l r : ℕ} (h2 : l ≤ r) (h3 : r < L.length) :
    (xsOf (seg L l r)).length + (ysOf (seg L l r)).length = r + 1 - l := by
  have : ∀ G : List (ℚ × Bool), (xsOf G).length + (ysOf G).length = G.length := by
    intro G
    induction G with
    | nil => rfl
    | cons p G ih =>
      obtain ⟨a, b⟩ := p
      cases b <;> simp <;> omega
  rw [this]
  unfold seg
  simp only [List.length_drop, List.length_take]
  omega

theorem gapF_ok {w : ℚ} (hw : 0 ≤ w) {L : List (ℚ × Bool)} {d e : ℚ} {seen l : ℕ}
    (h1 : seen ≤ l) (h : Acc R w L seen d e) :
    let d' := if l > seen then R.fl (d + ((l : ℚ) - seen)) else d
    Rel R (5 + 2 * seen) (w * (ysOf (L.take seen)).length) d' (e + ((l : ℚ) - seen)) ∧ 0 ≤ d' ∧
      0 ≤ e + ((l : ℚ) - seen) := by
  obtain ⟨a, b, c⟩ := h
  have hc : 0 ≤ w * ((ysOf (L.take seen)).length : ℚ) := by positivity
  have hls : (0 : ℚ) ≤ (l : ℚ) - seen := by
    have : (seen : ℚ) ≤ l := by exact_mod_cast h1
    linarith
  simp only
  split_ifs with h
  · have h2 : Rel R (4 + 2 * seen) 0 ((l : ℚ) - seen) ((l : ℚ) - seen) :=
      Rel.refl.mono (by omega) le_rfl (by simpa using hls)
    have h3 := (a.add h2).fl (by linarith) (by simpa using hc)
    rw [add_zero, show 4 + 2 * seen + 1 = 5 + 2 * seen by omega] at h3
    exact ⟨h3, fl_nonneg (by linarith), by linarith⟩
  · have : l = seen := by omega
    subst this
    rw [sub_self, add_zero]
    exact ⟨a.mono (by omega) le_rfl (by linarith), b, c⟩

theorem hybridComponentF_ok (hu : R.u ≤ 1 / 2) {L : List (ℚ × Bool)} (hL : L.Pairwise LocLe)
    (hs : Spread1 (xsOf L) (ysOf L)) : CompRel L (Acc R 0 L) (hybridComponentF R L) := by
  intro d e seen l r h1 h2 h3 hgap hlen hP
  have hd : (if l > seen then R.fl (d + (countX L seen l : ℚ)) else d) =
      (if l > seen then R.fl (d + ((l : ℚ) - seen)) else d) := by
    split_ifs with h
    · rw [countX_gap h1 (by omega) hgap, Nat.cast_sub h1]
    · rfl
  obtain ⟨a1, a2, a3⟩ := gapF_ok le_rfl h1 hP
  simp only [zero_mul] at a1
  have hsub := seg_sublist L l r
  have hseg : (seg L l r).Pairwise LocLe := hL.sublist hsub
  have hs' : Spread1 (xsOf (seg L l r)) (ysOf (seg L l r)) :=
    hs.mono (xsOf_subset hsub) (ysOf_subset hsub)
  have hlen2 := seg_length h2 h3
  unfold hybridComponentF
  simp only [hd, componentOf_false, componentOf_true]
  generalize (if l > seen then R.fl (d + ((l : ℚ) - seen)) else d) = d1 at *
  have g := greedySmallF_ok hu (by omega) le_rfl a1 a2 a3 (xsOf_pairwise hseg)
    (ysOf_pairwise hseg) hs' hlen
  generalize greedySmallF R d1 (xsOf (seg L l r)) (ysOf (seg L l r)) = G at *
  obtain ⟨e1, g1, b1, b2, b3, b4, b5⟩ := g.cost
  have k := greedyLargeF_ok hu (k := 5 + 2 * seen + g1) (by omega) le_rfl b2 g.pos b3
    (xs := G.2.1.reverse) (ys := G.2.2.reverse)
    (by rw [List.pairwise_reverse]; exact g.sx) (by rw [List.pairwise_reverse]; exact g.sy)
    (hs'.mono g.subx g.suby).reverse (by simp; omega)
  generalize greedyLargeF R G.1 G.2.1.reverse G.2.2.reverse = H at *
  obtain ⟨e2, g2, c1, c2, c3, c4, c5⟩ := k.cost
  simp only [List.length_reverse] at c4 c5
  have hcost : e2 + emd H.2.1.reverse H.2.2.reverse =
      e + ((l : ℚ) - seen) + emd (xsOf (seg L l r)) (ysOf (seg L l r)) := by
    rw [emd_reverse, c1, emd_reverse, b1]
  rw [← hcost]
  have hpos : 0 ≤ e2 + emd H.2.1.reverse H.2.2.reverse := add_nonneg c3 (emd_nonneg _ _)
  -- adding the cost of what is left
  have fin : ∀ v, 0 ≤ v → Rel R (H.2.1.length + H.2.2.length) 0 v
      (emd H.2.1.reverse H.2.2.reverse) →
      Acc R 0 L (r + 1) (R.fl (H.1 + v)) (e2 + emd H.2.1.reverse H.2.2.reverse) := by
    intro v hv hrel
    refine ⟨?_, fl_nonneg (add_nonneg k.pos hv), hpos⟩
    have t1 := c2.mono (k' := 3 + 2 * (r + 1)) (by omega) le_rfl (by simpa using c3)
    have t2 := hrel.mono (k' := 3 + 2 * (r + 1)) (by omega) le_rfl (by simpa using emd_nonneg _ _)
    have := (t1.add t2).fl (add_nonneg k.pos hv) (by simp)
    simp only [zero_mul]
    rw [show 4 + 2 * (r + 1) = 3 + 2 * (r + 1) + 1 by omega]
    simpa using this
  split_ifs with q1 q2
  · have hn : H.2.2.reverse = [] := List.length_eq_zero_iff.1 q1
    refine ⟨_, rfl, fin _ (by positivity) ?_⟩
    rw [hn, emd_nil_right]
    exact Rel.refl.mono (by omega) le_rfl (by positivity)
  · simp only [List.length_reverse] at q1 q2
    omega
  · rw [dpFallbackF_ok]
    refine ⟨_, rfl, fin _ (alignF_nonneg _ _) ?_⟩
    have := rel_emd (R := R) (x := H.2.1.reverse) (y := H.2.2.reverse)
      (by rw [List.pairwise_reverse]; exact k.sx) (by rw [List.pairwise_reverse]; exact k.sy)
    simpa using this

theorem oldComponentF_ok (hu : R.u ≤ 1 / 2) {L : List (ℚ × Bool)} (hL : L.Pairwise LocLe)
    (hs : Spread1 (xsOf L) (ysOf L)) (hN : L.length ≤ 2 ^ 53)
    (hM : ((L.length : ℕ) : ℕ∞) ≤ R.sumMax) : CompRel L (Acc R 1 L) (oldComponentF R L) := by
  intro d e seen l r h1 h2 h3 hgap hlen hP
  obtain ⟨a1, a2, a3⟩ := gapF_ok zero_le_one h1 hP
  simp only [one_mul] at a1
  have hsub := seg_sublist L l r
  have hseg : (seg L l r).Pairwise LocLe := hL.sublist hsub
  have hs' : Spread1 (xsOf (seg L l r)) (ysOf (seg L l r)) :=
    hs.mono (xsOf_subset hsub) (ysOf_subset hsub)
  have hlen2 := seg_length h2 h3
  have hlen3 := ysOf_take_add L h1 h2
  have hc0 : (0 : ℚ) ≤ ((ysOf (L.take seen)).length : ℚ) := by positivity
  unfold oldComponentF
  simp only [sliceOf_false, sliceOf_true]
  generalize (if l > seen then R.fl (d + ((l : ℚ) - seen)) else d) = d1 at *
  obtain ⟨G, eG, g⟩ := oldSmallF_ok hu (by omega) hc0 a1 a2 a3 (xsOf_pairwise hseg)
    (ysOf_pairwise hseg) hs' hlen
  obtain ⟨e1, g1, b1, b2, b3, b4, b5⟩ := g.cost
  obtain ⟨H, eH, k⟩ := oldLargeF_ok (k := 5 + 2 * seen + g1) (by omega) hc0 b2 g.pos b3
    (xs := G.2.1.reverse) (ys := G.2.2.reverse)
    (by rw [List.pairwise_reverse]; exact g.sx) (by rw [List.pairwise_reverse]; exact g.sy)
    (hs'.mono g.subx g.suby).reverse (by simp; omega)
  obtain ⟨e2, g2, c1, c2, c3, c4, c5⟩ := k.cost
  simp only [List.length_reverse] at c4 c5
  have hcost : e2 + emd H.2.1.reverse H.2.2.reverse =
      e + ((l : ℚ) - seen) + emd (xsOf (seg L l r)) (ysOf (seg L l r)) := by
    rw [emd_reverse, c1, emd_reverse, b1]
  rw [← hcost]
  have hpos : 0 ≤ e2 + emd H.2.1.reverse H.2.2.reverse := add_nonneg c3 (emd_nonneg _ _)
  have hsH : Spread1 H.2.1.reverse H.2.2.reverse :=
    ((hs'.mono g.subx g.suby).reverse.mono k.subx k.suby).reverse
  have hxH : H.2.1.reverse.Pairwise (· ≤ ·) := by rw [List.pairwise_reverse]; exact k.sx
  have hyH : H.2.2.reverse.Pairwise (· ≤ ·) := by rw [List.pairwise_reverse]; exact k.sy
  -- adding the cost of what is left
  have fin : ∀ v, 0 ≤ v → Rel R (H.2.2.length + 3) (H.2.2.length : ℚ) v
      (emd H.2.1.reverse H.2.2.reverse) →
      Acc R 1 L (r + 1) (R.fl (H.1 + v)) (e2 + emd H.2.1.reverse H.2.2.reverse) := by
    intro v hv hrel
    refine ⟨?_, fl_nonneg (add_nonneg k.pos hv), hpos⟩
    have t1 := c2.mono (k' := 3 + 2 * (r + 1)) (by omega) le_rfl (by linarith)
    have t2 := hrel.mono (k' := 3 + 2 * (r + 1)) (by omega) le_rfl
      (add_nonneg (emd_nonneg _ _) (by positivity))
    have := (t1.add t2).fl (add_nonneg k.pos hv) (by positivity)
    rw [show 4 + 2 * (r + 1) = 3 + 2 * (r + 1) + 1 by omega, one_mul]
    refine this.mono le_rfl ?_ (add_nonneg hpos (by positivity))
    have : (ysOf (L.take seen)).length + H.2.2.length ≤ (ysOf (L.take (r + 1))).length := by omega
    exact_mod_cast this
  simp only [eG, eH, bind, Except.bind]
  have hlx : H.2.1.reverse.length ≤ 2 ^ 53 := by simp only [List.length_reverse]; omega
  have hlH : H.2.2.reverse.length ≤ H.2.1.reverse.length := by
    simp only [List.length_reverse]; omega
  have hyM : H.2.2.reverse.length ≤ L.length := by simp only [List.length_reverse]; omega
  rw [show H.2.2.length = H.2.2.reverse.length by simp] at fin
  generalize H.2.1.reverse = cx at *
  generalize H.2.2.reverse = cy at *
  match cy, hsH, hlH, hyH, hyM, fin with
  | [], _, _, _, _, fin =>
    refine ⟨_, rfl, fin _ (by positivity) ?_⟩
    rw [emd_nil_right]
    exact Rel.refl.mono (by omega) (by simp) (by positivity)
  | [y], hsH, hlH, _, _, fin =>
    have hne : cx ≠ [] := by rintro rfl; simp at hlH
    obtain ⟨v, ev, hv, hv0⟩ := singleCostF_ok (R := R) hne hsH
    simp only [ev]
    refine ⟨_, rfl, fin _ hv0 ?_⟩
    exact hv.mono (by simp) (by simp) (add_nonneg (emd_nonneg _ _) zero_le_one)
  | y :: y' :: ys, hsH, hlH, hyH, hyM, fin =>
    obtain ⟨m, em, hm0, hm⟩ := comboCostsF_ok (R := R) hxH hyH hsH hlH hM hyM
    simp only [em]
    have hlq : (((y :: y' :: ys).length : ℕ) : ℚ) ≤ ((cx.length : ℕ) : ℚ) := by exact_mod_cast hlH
    have t : (((y :: y' :: ys).length : ℕ) : ℚ) ≤ R.fl (m + cx.length) :=
      hlq.trans (nat_le_fl hlx (by linarith))
    generalize y :: y' :: ys = cy at *
    refine ⟨_, rfl, fin _ (fl_nonneg (by linarith)) ?_⟩
    have s1 : Rel R (cy.length + 1) 0 ((cx.length : ℕ) : ℚ) ((cx.length : ℕ) : ℚ) :=
      Rel.refl.mono (by omega) le_rfl (by positivity)
    have s2 := (hm.add s1).fl (by positivity) (by simp)
    rw [add_zero] at s2
    have s3 := (s2.sub (b := (cy.length : ℚ))).fl (by linarith) (by positivity)
    have e3 : emd cx cy - ((cx.length : ℚ) - cy.length) + cx.length - cy.length = emd cx cy := by ring
    rw [e3] at s3
    exact s3

/-! ## The whole functions -/

theorem hybridMainF_ok (hu : R.u ≤ 1 / 2) {xs ys : List ℚ} (hs : Spread1 xs ys)
    (hl : ys.length ≤ xs.length) :
    ∃ v, hybridMainF R xs ys = .ok v ∧ 0 ≤ v ∧
      Rel R (2 * (xs.length + ys.length) + 5) 0 v (emd xs ys) := by
  have px := xsOf_locations xs ys
  have py := ysOf_locations xs ys
  have hs' : Spread1 (xsOf (locations xs ys)) (ysOf (locations xs ys)) :=
    hs.mono px.subset py.subset
  have hlen : (locations xs ys).length = xs.length + ys.length := by
    rw [(locations_perm xs ys).length_eq]; simp
  obtain ⟨Q, eQ, hQ⟩ := componentRanges_ok (locations xs ys)
  obtain ⟨d, s, e, eq, h1, ⟨p1, p2, p3⟩, h2, h3⟩ := processRanges_rel (locations_sorted xs ys)
    (by rw [px.length_eq, py.length_eq]; exact hl) hQ
    (hybridComponentF_ok hu (locations_sorted xs ys) hs')
    ⟨Rel.refl.mono (by omega) (by simp) (by simp), le_rfl, le_rfl⟩
  rw [emd_perm px py] at h2
  rw [zero_mul] at p1
  unfold hybridMainF
  simp only [eQ, eq, bind, Except.bind]
  split_ifs with h
  · rw [countX_gap h1 (le_refl _) (fun i a hi _ => h3 i a hi), Nat.cast_sub h1]
    have hls : (0 : ℚ) ≤ ((locations xs ys).length : ℚ) - s := by
      have : (s : ℚ) ≤ (locations xs ys).length := by exact_mod_cast h1
      linarith
    refine ⟨_, rfl, fl_nonneg (by linarith), ?_⟩
    have t1 := p1.mono (k' := 2 * (xs.length + ys.length) + 4) (by omega) le_rfl (by simpa using p3)
    have t2 : Rel R (2 * (xs.length + ys.length) + 4) 0 (((locations xs ys).length : ℚ) - s)
        (((locations xs ys).length : ℚ) - s) := Rel.refl.mono (by omega) le_rfl (by simpa using hls)
    have := (t1.add t2).fl (by linarith) (by simp)
    rw [h2, add_zero] at this
    exact this
  · have : (locations xs ys).length = s := by omega
    rw [this, sub_self, add_zero] at h2
    rw [← h2]
    exact ⟨d, rfl, p2, p1.mono (by omega) le_rfl (by simpa using p3)⟩

theorem oldMainF_ok (hu : R.u ≤ 1 / 2) {xs ys : List ℚ} (hs : Spread1 xs ys)
    (hl : ys.length ≤ xs.length) (hN : xs.length + ys.length ≤ 2 ^ 53)
    (hM : ((xs.length + ys.length : ℕ) : ℕ∞) ≤ R.sumMax) :
    ∃ v, oldMainF R xs ys = .ok v ∧ 0 ≤ v ∧
      Rel R (2 * (xs.length + ys.length) + 5) ys.length v (emd xs ys) := by
  have px := xsOf_locations xs ys
  have py := ysOf_locations xs ys
  have hs' : Spread1 (xsOf (locations xs ys)) (ysOf (locations xs ys)) :=
    hs.mono px.subset py.subset
  have hlen : (locations xs ys).length = xs.length + ys.length := by
    rw [(locations_perm xs ys).length_eq]; simp
  obtain ⟨Q, eQ, hQ⟩ := componentRanges_ok (locations xs ys)
  obtain ⟨d, s, e, eq, h1, ⟨p1, p2, p3⟩, h2, h3⟩ := processRanges_rel (locations_sorted xs ys)
    (by rw [px.length_eq, py.length_eq]; exact hl) hQ
    (oldComponentF_ok hu (locations_sorted xs ys) hs' (by omega) (by rwa [hlen]))
    ⟨Rel.refl.mono (by omega) (by positivity) (by simp), le_rfl, le_rfl⟩
  rw [emd_perm px py] at h2
  rw [one_mul] at p1
  have p4 := p1.mono (c' := ys.length) (k' := 2 * (xs.length + ys.length) + 4) (by omega) (by
    have : (ysOf ((locations xs ys).take s)).length ≤ ys.length := by
      rw [← py.length_eq]
      have := (((List.take_sublist s (locations xs ys)).filter (fun p => p.2)).map Prod.fst).length_le
      unfold ysOf
      exact this
    exact_mod_cast this) (add_nonneg p3 (by positivity))
  unfold oldMainF
  simp only [eQ, eq, bind, Except.bind]
  split_ifs with h
  · have hls : (0 : ℚ) ≤ ((locations xs ys).length : ℚ) - s := by
      have : (s : ℚ) ≤ (locations xs ys).length := by exact_mod_cast h1
      linarith
    refine ⟨_, rfl, fl_nonneg (by linarith), ?_⟩
    have t2 : Rel R (2 * (xs.length + ys.length) + 4) 0 (((locations xs ys).length : ℚ) - s)
        (((locations xs ys).length : ℚ) - s) := Rel.refl.mono (by omega) le_rfl (by simpa using hls)
    have := (p4.add t2).fl (by linarith) (by positivity)
    rw [h2, add_zero] at this
    exact this
  · have : (locations xs ys).length = s := by omega
    rw [this, sub_self, add_zero] at h2
    rw [← h2]
    exact ⟨d, rfl, p2, p4.mono (by omega) le_rfl (add_nonneg p3 (by positivity))⟩

theorem emdShellF_ok {main : List ℚ → List ℚ → Except PyErr ℚ} {w : ℕ → ℚ}
    (hw1 : ∀ n, 1 ≤ n → 1 ≤ w n) (hw0 : 0 ≤ w 0) (hw : Monotone w) {N : ℕ}
    (hmain : ∀ xs ys, Spread1 xs ys → ys.length ≤ xs.length → xs.length + ys.length ≤ N →
      ∃ v, main xs ys = .ok v ∧ 0 ≤ v ∧
        Rel R (2 * (xs.length + ys.length) + 5) (w ys.length) v (emd xs ys))
    {xs ys : List ℚ} (hs : Spread1 xs ys) (hN : xs.length + ys.length ≤ N)
    (hM : (N : ℕ∞) ≤ R.sumMax) :
    ∃ v, emdShellF R main xs ys = .ok v ∧ 0 ≤ v ∧
      Rel R (2 * (xs.length + ys.length) + 5) (w (min xs.length ys.length)) v (emd xs ys) := by
  have wpos : ∀ n, 0 ≤ w n := fun n => hw0.trans (hw (Nat.zero_le n))
  have relw : ∀ {k k' : ℕ} {c v e : ℚ} {n : ℕ}, Rel R k c v e → k ≤ k' → c ≤ w n → 0 ≤ c → 0 ≤ e →
      Rel R k' (w n) v e := fun h hk hc hc0 he => h.mono hk hc (add_nonneg he hc0)
  have key : ∀ xs ys : List ℚ, Spread1 xs ys → ys.length ≤ xs.length →
      xs.length + ys.length ≤ N →
      ∃ v, (match ys with
        | [] => (.ok (R.fl xs.length) : Except PyErr ℚ)
        | [y] => singleCostF R xs y
        | _ =>
          let xs := pySorted xs
          let ys := pySorted ys
          if xs.length = ys.length then .ok (zipCostF R xs.reverse ys.reverse)
          else
            let r := removeCommon xs ys
            match r.2 with
            | [] => .ok (R.fl r.1.length)
            | [y] => singleCostF R r.1 y
            | _ => main r.1 r.2) = .ok v ∧ 0 ≤ v ∧
        Rel R (2 * (xs.length + ys.length) + 5) (w ys.length) v (emd xs ys) := by
    intro xs ys hs hl hN
    have nil : ∀ n : ℕ, Rel R 1 0 (R.fl n) n := fun n => by
      have := (Rel.refl (R := R) (v := (n : ℚ))).fl (by positivity) le_rfl
      simpa using this
    match ys, hs, hl, hN with
    | [], _, _, _ =>
      refine ⟨_, rfl, fl_nonneg (by positivity), ?_⟩
      rw [emd_nil_right]
      exact relw (nil _) (by omega) (wpos _) le_rfl (by positivity)
    | [y], hs, hl, _ =>
      obtain ⟨v, e, h, h0⟩ := singleCostF_ok (R := R) (xs := xs) (y := y)
        (by rintro rfl; simp at hl) hs
      exact ⟨v, e, h0, relw h (by omega) (hw1 _ (by simp)) zero_le_one (emd_nonneg _ _)⟩
    | y :: y' :: ys, hs, hl, hN =>
      simp only
      generalize y :: y' :: ys = zs at *
      have hss := hs.sorted
      split_ifs with h
      · have e := emd_zip (pySorted_pairwise xs) (pySorted_pairwise zs) hss.two h
        rw [emd_sorted] at e
        have e' : emd xs zs = zipCost (pySorted xs).reverse (pySorted zs).reverse := by
          rw [e]
          unfold zipCost
          rw [← List.reverse_zipWith h, List.sum_reverse]
          rfl
        obtain ⟨r1, r2⟩ := rel_zipCost hM (xs := (pySorted xs).reverse) (ys := (pySorted zs).reverse)
          (by simp only [List.length_reverse, length_pySorted]; omega)
        refine ⟨_, rfl, r2, ?_⟩
        rw [← e'] at r1
        refine relw r1 ?_ (wpos _) le_rfl (emd_nonneg _ _)
        simp only [List.length_reverse, length_pySorted]
        omega
      · have e := emd_removeCommon (pySorted xs) (pySorted zs)
        obtain ⟨C, p1, p2, s1, s2⟩ := removeCommon_perm (pySorted xs) (pySorted zs)
        have hsr := hss.mono s1.subset s2.subset
        have l1 := p1.length_eq
        have l2 := p2.length_eq
        simp only [length_pySorted, List.length_append] at l1 l2
        rw [emd_sorted] at e
        rw [← e]
        generalize removeCommon (pySorted xs) (pySorted zs) = r at *
        obtain ⟨r1, r2⟩ := r
        simp only at *
        have hlr : r2.length ≤ r1.length := by omega
        match r2, hsr, hlr, l2 with
        | [], _, _, _ =>
          refine ⟨_, rfl, fl_nonneg (by positivity), ?_⟩
          rw [emd_nil_right]
          exact relw (nil _) (by omega) (wpos _) le_rfl (by positivity)
        | [y], hs, hl, l2 =>
          obtain ⟨v, e, h, h0⟩ := singleCostF_ok (R := R) (xs := r1) (y := y)
            (by rintro rfl; simp at hl) hs
          refine ⟨v, e, h0, relw h (by omega) (hw1 _ ?_) zero_le_one (emd_nonneg _ _)⟩
          simp at l2; omega
        | y :: y' :: ys, hs, hl, l2 =>
          obtain ⟨v, e, h0, h⟩ := hmain r1 _ hs hl (by omega)
          exact ⟨v, e, h0, relw h (by omega) (hw (by omega)) (wpos _) (emd_nonneg _ _)⟩
  unfold emdShellF
  by_cases h : xs.length < ys.length
  · rw [if_pos h, emd_comm, min_eq_left h.le, Nat.add_comm xs.length]
    exact key ys xs hs.symm h.le (by omega)
  · rw [if_neg h, min_eq_right (not_lt.1 h)]
    exact key xs ys hs (not_lt.1 h) hN

theorem emdHybridF_ok (hu : R.u ≤ 1 / 2) {xs ys : List ℚ} (hs : Spread1 xs ys)
    (hM : ((xs.length + ys.length : ℕ) : ℕ∞) ≤ R.sumMax) :
    ∃ v, emdHybridF R xs ys = .ok v ∧ 0 ≤ v ∧
      Rel R (2 * (xs.length + ys.length) + 5) 1 v (emd xs ys) :=
  emdShellF_ok (w := fun _ => 1) (fun _ _ => le_rfl) zero_le_one (fun _ _ _ => le_rfl)
    (N := xs.length + ys.length)
    (fun xs ys h1 h2 _ => by
      obtain ⟨v, e, h0, h⟩ := hybridMainF_ok hu h1 h2
      exact ⟨v, e, h0, h.mono le_rfl zero_le_one (by simpa using emd_nonneg _ _)⟩) hs le_rfl hM

theorem emdOldF_ok (hu : R.u ≤ 1 / 2) {xs ys : List ℚ} (hs : Spread1 xs ys)
    (hN : xs.length + ys.length ≤ 2 ^ 53) (hM : ((xs.length + ys.length : ℕ) : ℕ∞) ≤ R.sumMax) :
    ∃ v, emdOldF R xs ys = .ok v ∧ 0 ≤ v ∧
      Rel R (2 * (xs.length + ys.length) + 5) ((min xs.length ys.length : ℕ) : ℚ) v (emd xs ys) :=
  emdShellF_ok (w := fun n => n) (fun n h => by exact_mod_cast h) (by simp)
    (fun _ _ h => Nat.cast_le.2 h) (N := xs.length + ys.length)
    (fun _ _ h1 h2 h3 => oldMainF_ok hu h1 h2 (h3.trans hN) (le_trans (Nat.cast_le.2 h3) hM)) hs le_rfl hM

theorem emdSlowF_ok {xs ys : List ℚ} (hs : Spread1 xs ys)
    (hM : ((xs.length + ys.length : ℕ) : ℕ∞) ≤ R.sumMax) :
    ∃ v, emdSlowF R xs ys = .ok v ∧
      Rel R (min xs.length ys.length + 2) 0 v (emd xs ys) := by
  have key : ∀ {xs ys : List ℚ}, Spread1 xs ys → ys.length ≤ xs.length →
      ((ys.length : ℕ) : ℕ∞) ≤ R.sumMax →
      ∃ m, pyMin (comboCostsF R (pySorted xs) (pySorted ys)) = .ok m ∧
        Rel R (ys.length + 2) 0 (R.fl ((xs.length : ℚ) - ys.length + m)) (emd xs ys) := by
    intro xs ys hs hl hM
    obtain ⟨m, e, h0, h⟩ := comboCostsF_ok (R := R) (pySorted_pairwise xs) (pySorted_pairwise ys)
      hs.sorted (by simpa [length_pySorted] using hl) hM (by rw [length_pySorted])
    rw [emd_sorted, length_pySorted, length_pySorted] at h
    have hq : (0 : ℚ) ≤ (xs.length : ℚ) - ys.length := by
      have : ((ys.length : ℕ) : ℚ) ≤ xs.length := by exact_mod_cast hl
      linarith
    have t : Rel R (ys.length + 1) 0 ((xs.length : ℚ) - ys.length) ((xs.length : ℚ) - ys.length) :=
      Rel.refl.mono (by omega) le_rfl (by simpa using hq)
    have := (t.add h).fl (add_nonneg hq h0) (by simp)
    refine ⟨m, e, ?_⟩
    simpa using this
  unfold emdSlowF
  by_cases h : xs.length < ys.length
  · obtain ⟨m, e, h1⟩ := key hs.symm h.le (le_trans (Nat.cast_le.2 (by omega)) hM)
    simp only [if_pos h, e, bind, Except.bind, length_pySorted, pure, Except.pure]
    rw [emd_comm, min_eq_left h.le]
    exact ⟨_, rfl, h1⟩
  · obtain ⟨m, e, h1⟩ := key hs (not_lt.1 h) (le_trans (Nat.cast_le.2 (by omega)) hM)
    simp only [if_neg h, e, bind, Except.bind, length_pySorted, pure, Except.pure]
    rw [min_eq_right (not_lt.1 h)]
    exact ⟨_, rfl, h1⟩

end Fp
end Verif
