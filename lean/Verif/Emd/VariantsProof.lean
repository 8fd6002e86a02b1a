import Verif.Emd.Components

/-!
# `emd_1d_hybrid` and `emd_1d_old` compute the optimum when all distances are at most one
-/

namespace Verif

open EmdSpec

/-! ### Locations -/

instance : Std.Total locLe := ⟨by
  intro a b
  unfold locLe
  rcases lt_trichotomy a.1 b.1 with h | h | h
  · exact Or.inl (Or.inl h)
  · cases hb : b.2 with
    | true => exact Or.inl (Or.inr ⟨h, fun _ => rfl⟩)
    | false => exact Or.inr (Or.inr ⟨h.symm, fun h' => by simp at h'⟩)
  · exact Or.inr (Or.inl h)⟩

instance : IsTrans (ℚ × Bool) locLe := ⟨by
  rintro a b c (h | ⟨h1, h2⟩) (h' | ⟨h1', h2'⟩)
  · exact Or.inl (lt_trans h h')
  · exact Or.inl (h1' ▸ h)
  · exact Or.inl (h1 ▸ h')
  · exact Or.inr ⟨h1.trans h1', fun h => h2' (h2 h)⟩⟩

theorem locations_perm (xs ys : List ℚ) :
    (locations xs ys).Perm (xs.map (fun a => (a, false)) ++ ys.map (fun a => (a, true))) :=
  List.perm_insertionSort _ _

theorem locations_sorted (xs ys : List ℚ) : (locations xs ys).Pairwise LocLe := by
  have := List.pairwise_insertionSort locLe
    (xs.map (fun a => (a, false)) ++ ys.map (fun a => (a, true)))
  refine this.imp ?_
  rintro a b (h | ⟨h, _⟩)
  · exact h.le
  · exact h.le

theorem xsOf_perm {L L' : List (ℚ × Bool)} (h : L.Perm L') : (xsOf L).Perm (xsOf L') :=
  (h.filter _).map _

theorem ysOf_perm {L L' : List (ℚ × Bool)} (h : L.Perm L') : (ysOf L).Perm (ysOf L') :=
  (h.filter _).map _

theorem xsOf_locations (xs ys : List ℚ) : (xsOf (locations xs ys)).Perm xs := by
  refine (xsOf_perm (locations_perm xs ys)).trans ?_
  have h1 : ∀ l : List ℚ, xsOf (l.map (fun a => (a, false))) = l := by
    intro l; induction l with
    | nil => rfl
    | cons a l ih => simp [ih]
  have h2 : ∀ l : List ℚ, xsOf (l.map (fun a => (a, true))) = [] := by
    intro l; induction l with
    | nil => rfl
    | cons a l ih => simp [ih]
  rw [xsOf_append, h1, h2, List.append_nil]

theorem ysOf_locations (xs ys : List ℚ) : (ysOf (locations xs ys)).Perm ys := by
  refine (ysOf_perm (locations_perm xs ys)).trans ?_
  have h1 : ∀ l : List ℚ, ysOf (l.map (fun a => (a, false))) = [] := by
    intro l; induction l with
    | nil => rfl
    | cons a l ih => simp [ih]
  have h2 : ∀ l : List ℚ, ysOf (l.map (fun a => (a, true))) = l := by
    intro l; induction l with
    | nil => rfl
    | cons a l ih => simp [ih]
  rw [ysOf_append, h1, h2, List.nil_append]

/-! ### Slices -/

theorem zipIdx_filter_range {α : Type} (L : List α) (P : α → Bool) (a b : ℕ) :
    ∀ k, (L.zipIdx k).filter (fun p => decide (a + k ≤ p.2) && decide (p.2 < b + k) && P p.1) =
      (((L.take b).drop a).zipIdx (k + a)).filter (fun p => P p.1) := by
  induction L generalizing a b with
  | nil => intro k; simp
  | cons x L ih =>
    intro k
    rw [List.zipIdx_cons, List.filter_cons]
    cases b with
    | zero =>
      have : ∀ p ∈ L.zipIdx (k + 1), ¬ p.2 < 0 + k := by
        intro p hp
        have := List.le_snd_of_mem_zipIdx hp
        omega
      simp
      intro p q hp h1 h2
      have := this (p, q) hp
      simp at this
      omega
    | succ b =>
      cases a with
      | zero =>
        have := ih 0 b (k + 1)
        have e : (L.zipIdx (k + 1)).filter
            (fun p => decide (0 + k ≤ p.2) && decide (p.2 < b + 1 + k) && P p.1) =
            (L.zipIdx (k + 1)).filter
              (fun p => decide (0 + (k + 1) ≤ p.2) && decide (p.2 < b + (k + 1)) && P p.1) := by
          apply List.filter_congr
          intro p hp
          have := List.le_snd_of_mem_zipIdx hp
          have h1 : (0 + k ≤ p.2) ↔ (0 + (k + 1) ≤ p.2) := by omega
          have h2 : (p.2 < b + 1 + k) ↔ (p.2 < b + (k + 1)) := by omega
          simp only [h1, h2]
        rw [e, this]
        have hk : k < b + 1 + k := by omega
        simp [hk, List.filter_cons]
      | succ a =>
        have := ih a b (k + 1)
        have e : (L.zipIdx (k + 1)).filter
            (fun p => decide (a + 1 + k ≤ p.2) && decide (p.2 < b + 1 + k) && P p.1) =
            (L.zipIdx (k + 1)).filter
              (fun p => decide (a + (k + 1) ≤ p.2) && decide (p.2 < b + (k + 1)) && P p.1) := by
          apply List.filter_congr
          intro p hp
          have h1 : (a + 1 + k ≤ p.2) ↔ (a + (k + 1) ≤ p.2) := by omega
          have h2 : (p.2 < b + 1 + k) ↔ (p.2 < b + (k + 1)) := by omega
          simp only [h1, h2]
        rw [e, this]
        have hk : ¬ a + 1 + k ≤ k := by omega
        simp [hk]
        rw [show k + 1 + a = k + (a + 1) by omega]

theorem zipIdx_filter_fst {α : Type} (L : List α) (P : α → Bool) (k : ℕ) :
    ((L.zipIdx k).filter (fun p => P p.1)).map Prod.fst = L.filter P := by
  induction L generalizing k with
  | nil => rfl
  | cons x L ih =>
    rw [List.zipIdx_cons, List.filter_cons, List.filter_cons]
    cases h : P x <;> simp [ih]

theorem range_filter_fst (L : List (ℚ × Bool)) (P : ℚ × Bool → Bool) (a b : ℕ) :
    (L.zipIdx.filter (fun p => decide (a ≤ p.2) && decide (p.2 < b) && P p.1)).map Prod.fst =
      ((L.take b).drop a).filter P := by
  have := zipIdx_filter_range L P a b 0
  simp only [Nat.add_zero] at this
  rw [this, zipIdx_filter_fst]

theorem componentOf_false (L : List (ℚ × Bool)) (l r : ℕ) :
    componentOf L l r false = xsOf (seg L l r) := by
  have := range_filter_fst L (fun p => p.2 == false) l (r + 1)
  unfold componentOf xsOf seg
  rw [show (fun p : ℚ × Bool => !p.2) = (fun p => p.2 == false) by funext p; cases p.2 <;> rfl,
    ← this, List.map_map]
  simp only [Nat.lt_succ_iff]
  rfl

theorem componentOf_true (L : List (ℚ × Bool)) (l r : ℕ) :
    componentOf L l r true = ysOf (seg L l r) := by
  have := range_filter_fst L (fun p => p.2 == true) l (r + 1)
  unfold componentOf ysOf seg
  rw [show (fun p : ℚ × Bool => p.2) = (fun p => p.2 == true) by funext p; cases p.2 <;> rfl,
    ← this, List.map_map]
  simp only [Nat.lt_succ_iff]
  rfl

theorem sliceOf_false (L : List (ℚ × Bool)) (l r : ℕ) : sliceOf L l r false = xsOf (seg L l r) := by
  unfold sliceOf xsOf seg
  rw [List.filter_reverse, List.map_reverse, List.reverse_reverse,
    show (fun p : ℚ × Bool => !p.2) = (fun p => p.2 == false) by funext p; cases p.2 <;> rfl]

theorem sliceOf_true (L : List (ℚ × Bool)) (l r : ℕ) : sliceOf L l r true = ysOf (seg L l r) := by
  unfold sliceOf ysOf seg
  rw [List.filter_reverse, List.map_reverse, List.reverse_reverse,
    show (fun p : ℚ × Bool => p.2) = (fun p => p.2 == true) by funext p; cases p.2 <;> rfl]

theorem countX_gap {L : List (ℚ × Bool)} {a b : ℕ} (hab : a ≤ b) (hb : b ≤ L.length)
    (h : ∀ (i : ℕ) (c : ℚ), a ≤ i → i < b → L[i]? ≠ some (c, true)) : countX L a b = b - a := by
  have := congrArg List.length (range_filter_fst L (fun p => !p.2) a b)
  unfold countX
  rw [List.length_map] at this
  rw [this]
  have hx := (ysOf_eq_nil (gap_x h)).2
  unfold xsOf at hx
  rw [List.length_map] at hx
  rw [hx, List.length_drop, List.length_take]
  omega

/-! ### Components -/

theorem seg_sublist (L : List (ℚ × Bool)) (l r : ℕ) : (seg L l r).Sublist L :=
  (List.drop_sublist _ _).trans (List.take_sublist _ _)

theorem xsOf_subset {L L' : List (ℚ × Bool)} (h : L.Sublist L') : xsOf L ⊆ xsOf L' :=
  ((h.filter _).map _).subset

theorem ysOf_subset {L L' : List (ℚ × Bool)} (h : L.Sublist L') : ysOf L ⊆ ysOf L' :=
  ((h.filter _).map _).subset

theorem GreedyOk.spread {R : ℚ → ℚ → Prop} {d : ℚ} {xs ys : List ℚ} {r : ℚ × List ℚ × List ℚ}
    (h : GreedyOk R d xs ys r) (hs : Spread1 xs ys) : Spread1 r.2.1 r.2.2 :=
  hs.mono h.subx h.suby

theorem EmdSpec.Spread1.reverse {xs ys : List ℚ} (h : Spread1 xs ys) :
    Spread1 xs.reverse ys.reverse :=
  h.mono (fun _ ha => List.mem_reverse.1 ha) (fun _ ha => List.mem_reverse.1 ha)

theorem GreedyOk.spread2 {R : ℚ → ℚ → Prop} {d : ℚ} {xs ys : List ℚ} {r : ℚ × List ℚ × List ℚ}
    (h : GreedyOk R d xs ys r) (hs : Spread2 xs ys) : Spread2 r.2.1 r.2.2 :=
  hs.mono h.subx h.suby

theorem EmdSpec.Spread2.reverse {xs ys : List ℚ} (h : Spread2 xs ys) :
    Spread2 xs.reverse ys.reverse :=
  h.mono (fun _ ha => List.mem_reverse.1 ha) (fun _ ha => List.mem_reverse.1 ha)

theorem emd_reverse (xs ys : List ℚ) : emd xs.reverse ys.reverse = emd xs ys :=
  emd_perm (List.reverse_perm _) (List.reverse_perm _)

theorem hybridComponent_ok {L : List (ℚ × Bool)} (hL : L.Pairwise LocLe)
    (hs : Spread2 (xsOf L) (ysOf L)) : CompOk L (hybridComponent L) := by
  intro d seen l r h1 h2 h3 hgap hlen
  have hd : (if l > seen then d + (countX L seen l : ℚ) else d) = d + ((l : ℚ) - seen) := by
    split_ifs with h
    · rw [countX_gap h1 (by omega) hgap, Nat.cast_sub h1]
    · have : l = seen := by omega
      subst this; ring
  have hsub := seg_sublist L l r
  have hseg : (seg L l r).Pairwise LocLe := hL.sublist hsub
  have hs' : Spread2 (xsOf (seg L l r)) (ysOf (seg L l r)) :=
    hs.mono (xsOf_subset hsub) (ysOf_subset hsub)
  have g := greedySmall_ok (d + ((l : ℚ) - seen)) (xsOf_pairwise hseg) (ysOf_pairwise hseg) hs' hlen
  unfold hybridComponent
  simp only [hd, componentOf_false, componentOf_true]
  generalize greedySmall (d + ((l : ℚ) - seen)) (xsOf (seg L l r)) (ysOf (seg L l r)) = G at *
  have k := greedyLarge_ok G.1 (by rw [List.pairwise_reverse]; exact g.sx)
    (by rw [List.pairwise_reverse]; exact g.sy) (g.spread2 hs').reverse (by simpa using g.len)
  generalize greedyLarge G.1 G.2.1.reverse G.2.2.reverse = H at *
  have hcost : H.1 + emd H.2.1.reverse H.2.2.reverse =
      d + ((l : ℚ) - seen) + emd (xsOf (seg L l r)) (ysOf (seg L l r)) := by
    rw [emd_reverse, k.cost, emd_reverse, g.cost]
  rw [← hcost]
  split_ifs with c1 c2
  · have : H.2.2.reverse = [] := List.length_eq_zero_iff.1 c1
    rw [this, emd_nil_right]; rfl
  · have := k.len
    simp at c1 c2
    simp [c2] at this
    exact absurd this c1
  · rw [dpFallback_emd (by rw [List.pairwise_reverse]; exact k.sx)
      (by rw [List.pairwise_reverse]; exact k.sy)]
    rfl

theorem oldComponent_ok {L : List (ℚ × Bool)} (hL : L.Pairwise LocLe)
    (hs : Spread1 (xsOf L) (ysOf L)) : CompOk L (oldComponent L) := by
  intro d seen l r h1 h2 h3 hgap hlen
  have hd : (if l > seen then d + ((l : ℚ) - seen) else d) = d + ((l : ℚ) - seen) := by
    split_ifs with h
    · rfl
    · have : l = seen := by omega
      subst this; ring
  have hsub := seg_sublist L l r
  have hseg : (seg L l r).Pairwise LocLe := hL.sublist hsub
  have hs' : Spread1 (xsOf (seg L l r)) (ysOf (seg L l r)) :=
    hs.mono (xsOf_subset hsub) (ysOf_subset hsub)
  obtain ⟨G, eG, g⟩ := oldSmall_ok (d + ((l : ℚ) - seen)) (xsOf_pairwise hseg)
    (ysOf_pairwise hseg) hs'.two hlen
  obtain ⟨H, eH, k⟩ := oldLarge_ok G.1 (by rw [List.pairwise_reverse]; exact g.sx)
    (by rw [List.pairwise_reverse]; exact g.sy) (g.spread hs').reverse.two (by simpa using g.len)
  have hcost : H.1 + emd H.2.1.reverse H.2.2.reverse =
      d + ((l : ℚ) - seen) + emd (xsOf (seg L l r)) (ysOf (seg L l r)) := by
    rw [emd_reverse, k.cost, emd_reverse, g.cost]
  have hsH : Spread1 H.2.1.reverse H.2.2.reverse := (k.spread (g.spread hs').reverse).reverse
  have hlH : H.2.2.reverse.length ≤ H.2.1.reverse.length := by simpa using k.len
  have hxH : H.2.1.reverse.Pairwise (· ≤ ·) := by rw [List.pairwise_reverse]; exact k.sx
  have hyH : H.2.2.reverse.Pairwise (· ≤ ·) := by rw [List.pairwise_reverse]; exact k.sy
  unfold oldComponent
  simp only [hd, sliceOf_false, sliceOf_true, eG, eH, bind, Except.bind, ← hcost]
  generalize H.2.1.reverse = cx at *
  generalize H.2.2.reverse = cy at *
  match cy, hsH, hlH, hyH with
  | [], _, _, _ => rw [emd_nil_right]; rfl
  | [y], hsH, hlH, _ =>
    have hne : cx ≠ [] := by rintro rfl; simp at hlH
    have := singleCost_eq hne hsH.two
    unfold singleCost at this
    simp only [bind, Except.bind] at this
    cases hm : pyMin (cx.map (fun x => |x - y|)) with
    | error e => rw [hm] at this; simp at this
    | ok m =>
      rw [hm] at this
      simp only [pure, Except.pure, Except.ok.injEq] at this
      simp only [hm, pure, Except.pure, this]
  | y :: y' :: ys, hsH, hlH, hyH =>
    simp only [pyMin_comboCosts hxH hyH hsH hlH, pure, Except.pure]
    congr 1
    ring

/-! ### The whole functions -/

theorem hybridMain_ok {xs ys : List ℚ} (hs : Spread2 xs ys) (hl : ys.length ≤ xs.length) :
    hybridMain xs ys = .ok (emd xs ys) := by
  have px := xsOf_locations xs ys
  have py := ysOf_locations xs ys
  have hs' : Spread2 (xsOf (locations xs ys)) (ysOf (locations xs ys)) :=
    hs.mono px.subset py.subset
  obtain ⟨R, eR, hR⟩ := componentRanges_ok (locations xs ys)
  obtain ⟨d, s, e, h1, h2, h3⟩ := processRanges_ok (locations_sorted xs ys)
    (by rw [px.length_eq, py.length_eq]; exact hl) hR
    (hybridComponent_ok (locations_sorted xs ys) hs')
  rw [emd_perm px py] at h2
  unfold hybridMain
  simp only [eR, e, bind, Except.bind]
  split_ifs with h
  · rw [countX_gap h1 (le_refl _) (fun i a hi _ => h3 i a hi), Nat.cast_sub h1, h2]; rfl
  · have : (locations xs ys).length = s := by omega
    rw [this] at h2
    rw [← h2]
    show Except.ok d = _
    congr 1; ring

theorem oldMain_ok {xs ys : List ℚ} (hs : Spread1 xs ys) (hl : ys.length ≤ xs.length) :
    oldMain xs ys = .ok (emd xs ys) := by
  have px := xsOf_locations xs ys
  have py := ysOf_locations xs ys
  have hs' : Spread1 (xsOf (locations xs ys)) (ysOf (locations xs ys)) :=
    hs.mono px.subset py.subset
  obtain ⟨R, eR, hR⟩ := componentRanges_ok (locations xs ys)
  obtain ⟨d, s, e, h1, h2, h3⟩ := processRanges_ok (locations_sorted xs ys)
    (by rw [px.length_eq, py.length_eq]; exact hl) hR
    (oldComponent_ok (locations_sorted xs ys) hs')
  rw [emd_perm px py] at h2
  unfold oldMain
  simp only [eR, e, bind, Except.bind]
  split_ifs with h
  · rw [h2]; rfl
  · have : (locations xs ys).length = s := by omega
    rw [this] at h2
    rw [← h2]
    show Except.ok d = _
    congr 1; ring

/-- All points within distance `c`: `Spread1` is `c = 1`, `Spread2` is `c = 2`. -/
def Within (c : ℚ) (xs ys : List ℚ) : Prop := ∀ x ∈ xs, ∀ y ∈ ys, |x - y| ≤ c

theorem Within.mono {c : ℚ} {xs ys xs' ys' : List ℚ} (h : Within c xs ys) (hx : xs' ⊆ xs)
    (hy : ys' ⊆ ys) : Within c xs' ys' := fun a ha b hb => h a (hx ha) b (hy hb)

theorem Within.symm {c : ℚ} {xs ys : List ℚ} (h : Within c xs ys) : Within c ys xs :=
  fun a ha b hb => by rw [abs_sub_comm]; exact h b hb a ha

theorem Within.sorted {c : ℚ} {xs ys : List ℚ} (h : Within c xs ys) :
    Within c (pySorted xs) (pySorted ys) :=
  h.mono (fun _ ha => (pySorted_perm _).mem_iff.1 ha) (fun _ ha => (pySorted_perm _).mem_iff.1 ha)

theorem Within.two {c : ℚ} {xs ys : List ℚ} (h : Within c xs ys) (hc : c ≤ 2) : Spread2 xs ys :=
  fun a ha b hb => (h a ha b hb).trans hc

theorem emdShell_ok {main : List ℚ → List ℚ → Except PyErr ℚ} {c : ℚ} (hc : c ≤ 2)
    (hmain : ∀ xs ys, Within c xs ys → ys.length ≤ xs.length → main xs ys = .ok (emd xs ys))
    {xs ys : List ℚ} (hs : Within c xs ys) : emdShell main xs ys = .ok (emd xs ys) := by
  have key : ∀ xs ys : List ℚ, Within c xs ys → ys.length ≤ xs.length →
      (match ys with
        | [] => (.ok (xs.length : ℚ) : Except PyErr ℚ)
        | [y] => singleCost xs y
        | _ =>
          let xs := pySorted xs
          let ys := pySorted ys
          if xs.length = ys.length then .ok (zipCost xs.reverse ys.reverse)
          else
            let r := removeCommon xs ys
            match r.2 with
            | [] => .ok (r.1.length : ℚ)
            | [y] => singleCost r.1 y
            | _ => main r.1 r.2) = .ok (emd xs ys) := by
    intro xs ys hs hl
    match ys, hs, hl with
    | [], _, _ => rw [emd_nil_right]
    | [y], hs, hl => exact singleCost_eq (by rintro rfl; simp at hl) (hs.two hc)
    | y :: y' :: ys, hs, hl =>
      simp only
      generalize y :: y' :: ys = zs at *
      have hss := hs.sorted
      split_ifs with h
      · have e := emd_zip (pySorted_pairwise xs) (pySorted_pairwise zs) (hss.two hc) h
        rw [emd_sorted] at e
        rw [e]
        congr 1
        unfold zipCost
        rw [← List.reverse_zipWith h, List.sum_reverse]
        rfl
      · have e := emd_removeCommon (pySorted xs) (pySorted zs)
        obtain ⟨C, p1, p2, s1, s2⟩ := removeCommon_perm (pySorted xs) (pySorted zs)
        have hsr := hss.mono s1.subset s2.subset
        have hlr : (removeCommon (pySorted xs) (pySorted zs)).2.length ≤
            (removeCommon (pySorted xs) (pySorted zs)).1.length := by
          have l1 := p1.length_eq
          have l2 := p2.length_eq
          simp only [length_pySorted, List.length_append] at l1 l2
          omega
        rw [emd_sorted] at e
        rw [← e]
        generalize removeCommon (pySorted xs) (pySorted zs) = r at *
        obtain ⟨r1, r2⟩ := r
        simp only at *
        match r2, hsr, hlr with
        | [], _, _ => rw [emd_nil_right]
        | [y], hs, hl => exact singleCost_eq (by rintro rfl; simp at hl) (hs.two hc)
        | y :: y' :: ys, hs, hl => exact hmain _ _ hs hl
  unfold emdShell
  by_cases h : xs.length < ys.length
  · rw [if_pos h, emd_comm]
    exact key ys xs hs.symm h.le
  · rw [if_neg h]
    exact key xs ys hs (not_lt.1 h)

theorem emdHybrid_eq {xs ys : List ℚ} (hs : Spread2 xs ys) : emdHybrid xs ys = .ok (emd xs ys) :=
  emdShell_ok (c := 2) le_rfl (fun _ _ h1 h2 => hybridMain_ok h1 h2) hs

theorem emdOld_eq {xs ys : List ℚ} (hs : Spread1 xs ys) : emdOld xs ys = .ok (emd xs ys) :=
  emdShell_ok (c := 1) (by norm_num) (fun _ _ h1 h2 => oldMain_ok h1 h2) hs

end Verif
