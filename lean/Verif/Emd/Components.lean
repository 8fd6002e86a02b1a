import Verif.Emd.Combos

/-!
# The component ranges found by the scans, and the merge loop
-/

namespace Verif

open EmdSpec

theorem enumLocs_concat (P : List (ℚ × Bool)) (e : ℚ × Bool) :
    enumLocs (P ++ [e]) = enumLocs P ++ [(P.length, e.2)] := by
  simp [enumLocs, List.zipIdx_append]

theorem enumLocs_reverse (L : List (ℚ × Bool)) :
    (enumLocs L).reverse = (enumLocs L.reverse).map (fun e => (L.length - 1 - e.1, e.2)) := by
  apply List.ext_getElem
  · simp [enumLocs]
  · intro i h1 h2
    simp [enumLocs]

/-- State of the scan after the elements of `P`. -/
structure ScanInv (P : List (ℚ × Bool)) (s : Scan) : Prop where
  cur_iff : s.cur = none ↔ s.n = 0
  bound : ∀ t, t <:+ P → (ysOf t).length ≤ s.n + (xsOf t).length
  cur_lt : ∀ l, s.cur = some l → l < P.length
  rng : ∀ p ∈ s.ranges, p.1 ≤ p.2 ∧ p.2 < P.length
  cov : ∀ j, j ≤ P.length → (∀ p ∈ s.ranges, ¬ (p.1 < j ∧ j ≤ p.2)) →
    (∀ l, s.cur = some l → ¬ l < j) → SufOk (P.take j)
  covy : ∀ i a, P[i]? = some (a, true) →
    (∃ p ∈ s.ranges, p.1 ≤ i ∧ i ≤ p.2) ∨ ∃ l, s.cur = some l ∧ l ≤ i

theorem sufOk_nil : SufOk [] := by
  intro t ht
  rw [List.suffix_nil.1 ht]; simp

theorem scanInv_nil : ScanInv [] { n := 0, cur := none, ranges := [] } where
  cur_iff := by simp
  bound := by intro t ht; rw [List.suffix_nil.1 ht]; simp
  cur_lt := by simp
  rng := by simp
  cov := by intro j _ _ _; simpa using sufOk_nil
  covy := by simp

theorem ScanInv.bound_concat {P : List (ℚ × Bool)} {s : Scan} (h : ScanInv P s) (e : ℚ × Bool)
    (t : List (ℚ × Bool)) (ht : t <:+ P ++ [e]) :
    (ysOf t).length ≤ (if e.2 then s.n + 1 else s.n - 1) + (xsOf t).length := by
  rcases List.suffix_concat_iff.1 ht with rfl | ⟨t, rfl, ht'⟩
  · simp
  · have := h.bound t ht'
    obtain ⟨a, b⟩ := e
    cases b <;> simp <;> omega

theorem take_concat_of_le {α : Type} {P : List α} {e : α} {j : ℕ} (h : j ≤ P.length) :
    (P ++ [e]).take j = P.take j := by
  rw [List.take_append_of_le_length h]

theorem sufOk_of_bound {P : List (ℚ × Bool)}
    (h : ∀ t, t <:+ P → (ysOf t).length ≤ 0 + (xsOf t).length) : SufOk P := by
  intro t ht
  have := h t ht
  omega

theorem scanInv_step {P : List (ℚ × Bool)} {s : Scan} (h : ScanInv P s) (e : ℚ × Bool) :
    ∃ s', scanStep (fun c i => (c, i)) s (P.length, e.2) = .ok s' ∧ ScanInv (P ++ [e]) s' := by
  have hb := h.bound_concat e
  obtain ⟨a, b⟩ := e
  have hget : ∀ i c, (P ++ [(a, b)])[i]? = some (c, true) →
      P[i]? = some (c, true) ∨ (i = P.length ∧ b = true) := by
    intro i c hi
    rcases Nat.lt_trichotomy i P.length with hlt | heq | hgt
    · rw [List.getElem?_append_left hlt] at hi; exact Or.inl hi
    · subst heq
      simp at hi
      exact Or.inr ⟨rfl, hi.2⟩
    · rw [List.getElem?_eq_none (by simp; omega)] at hi
      simp at hi
  cases b with
  | true =>
    refine ⟨{ n := s.n + 1, cur := some (s.cur.getD P.length), ranges := s.ranges },
      by simp [scanStep], ?_⟩
    refine ⟨by simp, by simpa using hb, ?_, ?_, ?_, ?_⟩
    · intro l hl
      simp only [Option.some.injEq] at hl
      cases hc : s.cur with
      | none => simp [hc] at hl; subst hl; simp
      | some l' =>
        have := h.cur_lt l' hc
        simp [hc] at hl; subst hl; simp; omega
    · intro p hp
      have := h.rng p hp
      simp; omega
    · intro j hj hr hl
      have hl' := hl _ rfl
      have hj' : j ≤ P.length := by
        cases hc : s.cur with
        | none => simp [hc] at hl'; exact hl'
        | some l' =>
          have := h.cur_lt l' hc
          simp [hc] at hl'; omega
      rw [take_concat_of_le hj']
      refine h.cov j hj' hr (fun l hc => ?_)
      simpa [hc] using hl'
    · intro i c hi
      rcases hget i c hi with h1 | ⟨rfl, _⟩
      · rcases h.covy i c h1 with h2 | ⟨l, h2, h3⟩
        · exact Or.inl h2
        · exact Or.inr ⟨l, by simp [h2], h3⟩
      · refine Or.inr ⟨_, rfl, ?_⟩
        cases hc : s.cur with
        | none => simp
        | some l' =>
          have := h.cur_lt l' hc
          simp; omega
  | false =>
    simp only [Bool.false_eq_true, if_false] at hb
    have hgetx : ∀ (i : ℕ) (c : ℚ), (P ++ [(a, false)])[i]? = some (c, true) → P[i]? = some (c, true) := by
      intro i c hi
      rcases hget i c hi with h1 | ⟨_, h2⟩
      · exact h1
      · simp at h2
    rcases Nat.eq_zero_or_pos s.n with hn | hn
    · refine ⟨s, by simp [scanStep, hn], ?_⟩
      have hc := h.cur_iff.2 hn
      refine ⟨h.cur_iff, by simpa [hn] using hb, by simp [hc], ?_, ?_, ?_⟩
      · intro p hp
        have := h.rng p hp
        simp; omega
      · intro j hj hr hl
        rcases Nat.lt_or_ge P.length j with hj' | hj'
        · have : j = P.length + 1 := by simp at hj; omega
          subst this
          rw [List.take_of_length_le (by simp)]
          apply sufOk_of_bound
          simpa [hn] using hb
        · rw [take_concat_of_le hj']
          exact h.cov j hj' hr hl
      · intro i c hi
        exact h.covy i c (hgetx i c hi)
    · by_cases hn1 : s.n - 1 = 0
      · cases hc : s.cur with
        | none => have := h.cur_iff.1 hc; omega
        | some l0 =>
          refine ⟨{ n := s.n - 1, cur := none, ranges := s.ranges ++ [(l0, P.length)] },
            by simp [scanStep, hn, hn1, hc], ?_⟩
          have hl0 := h.cur_lt l0 hc
          refine ⟨by simp [hn1], by simpa [hn1] using hb, by simp, ?_, ?_, ?_⟩
          · intro p hp
            rcases List.mem_append.1 hp with hp | hp
            · have := h.rng p hp
              simp; omega
            · rw [List.mem_singleton.1 hp]; simp; omega
          · intro j hj hr _
            rcases Nat.lt_or_ge P.length j with hj' | hj'
            · have : j = P.length + 1 := by simp at hj; omega
              subst this
              rw [List.take_of_length_le (by simp)]
              apply sufOk_of_bound
              simpa [hn1] using hb
            · rw [take_concat_of_le hj']
              refine h.cov j hj' (fun p hp => hr p (List.mem_append_left _ hp)) (fun l hl => ?_)
              rw [hc] at hl
              simp only [Option.some.injEq] at hl
              subst hl
              have := hr (l0, P.length) (List.mem_append_right _ (List.mem_singleton.2 rfl))
              simp only at this
              omega
          · intro i c hi
            have hi' := hgetx i c hi
            rcases h.covy i c hi' with ⟨p, hp, h2⟩ | ⟨l, h2, h3⟩
            · exact Or.inl ⟨p, List.mem_append_left _ hp, h2⟩
            · refine Or.inl ⟨(l0, P.length), List.mem_append_right _ (List.mem_singleton.2 rfl), ?_⟩
              rw [hc] at h2
              simp only [Option.some.injEq] at h2
              have := (List.getElem?_eq_some_iff.1 hi').1
              simp only
              omega
      · refine ⟨{ s with n := s.n - 1 }, by simp [scanStep, hn, hn1], ?_⟩
        refine ⟨?_, by simpa using hb, ?_, ?_, ?_, ?_⟩
        · simp only
          constructor
          · intro hc; have := h.cur_iff.1 hc; omega
          · intro h'; omega
        · intro l hl
          have := h.cur_lt l hl
          simp; omega
        · intro p hp
          have := h.rng p hp
          simp; omega
        · intro j hj hr hl
          rcases Nat.lt_or_ge P.length j with hj' | hj'
          · cases hc : s.cur with
            | none => have := h.cur_iff.1 hc; omega
            | some l0 =>
              have h1 := h.cur_lt l0 hc
              have h2 := hl l0 hc
              omega
          · rw [take_concat_of_le hj']
            exact h.cov j hj' hr hl
        · intro i c hi
          exact h.covy i c (hgetx i c hi)

theorem scanInv_run (P : List (ℚ × Bool)) :
    ∃ s, (enumLocs P).foldlM (scanStep (fun c i => (c, i))) { n := 0, cur := none, ranges := [] }
      = .ok s ∧ ScanInv P s := by
  induction P using List.reverseRecOn with
  | nil => exact ⟨_, rfl, scanInv_nil⟩
  | append_singleton P e ih =>
    obtain ⟨s, h1, h2⟩ := ih
    obtain ⟨s', h3, h4⟩ := scanInv_step h2 e
    refine ⟨s', ?_, h4⟩
    rw [enumLocs_concat, List.foldlM_append, h1]
    simp [bind, Except.bind, h3, pure, Except.pure]

/-- What one scan finds. -/
structure FwdRanges (L : List (ℚ × Bool)) (R : List (ℕ × ℕ)) : Prop where
  rng : ∀ p ∈ R, p.1 ≤ p.2 ∧ p.2 < L.length
  cov : ∀ j, j < L.length → (∀ p ∈ R, ¬ (p.1 < j ∧ j ≤ p.2)) → SufOk (L.take j)
  covy : ∀ i a, L[i]? = some (a, true) → ∃ p ∈ R, p.1 ≤ i ∧ i ≤ p.2

theorem scan_fwd (L : List (ℚ × Bool)) :
    ∃ R, scan (fun c i => (c, i)) (L.length - 1) (enumLocs L) = .ok R ∧ FwdRanges L R := by
  obtain ⟨s, h1, h⟩ := scanInv_run L
  unfold scan
  rw [h1]
  cases hc : s.cur with
  | none =>
    refine ⟨s.ranges, by simp [bind, Except.bind, hc, pure, Except.pure], h.rng, ?_, ?_⟩
    · intro j hj hr
      exact h.cov j hj.le hr (by simp [hc])
    · intro i a hi
      rcases h.covy i a hi with h2 | ⟨l, h2, _⟩
      · exact h2
      · rw [hc] at h2; simp at h2
  | some l0 =>
    have hl0 := h.cur_lt l0 hc
    refine ⟨s.ranges ++ [(l0, L.length - 1)],
      by simp [bind, Except.bind, hc, pure, Except.pure], ?_, ?_, ?_⟩
    · intro p hp
      rcases List.mem_append.1 hp with hp | hp
      · exact h.rng p hp
      · rw [List.mem_singleton.1 hp]; simp; omega
    · intro j hj hr
      refine h.cov j hj.le (fun p hp => hr p (List.mem_append_left _ hp)) (fun l hl => ?_)
      rw [hc] at hl
      simp only [Option.some.injEq] at hl
      subst hl
      have := hr (l0, L.length - 1) (List.mem_append_right _ (List.mem_singleton.2 rfl))
      simp only at this
      omega
    · intro i a hi
      have hlt := (List.getElem?_eq_some_iff.1 hi).1
      rcases h.covy i a hi with ⟨p, hp, h2⟩ | ⟨l, h2, h3⟩
      · exact ⟨p, List.mem_append_left _ hp, h2⟩
      · refine ⟨(l0, L.length - 1), List.mem_append_right _ (List.mem_singleton.2 rfl), ?_⟩
        rw [hc] at h2
        simp only [Option.some.injEq] at h2
        simp only
        omega

/-- Renaming the indices of a scan. -/
def mapScan (mk : ℕ → ℕ → ℕ × ℕ) (g : ℕ → ℕ) (s : Scan) : Scan :=
  { n := s.n, cur := s.cur.map g, ranges := s.ranges.map (fun p => mk (g p.1) (g p.2)) }

theorem scanStep_map (mk : ℕ → ℕ → ℕ × ℕ) (g : ℕ → ℕ) (s : Scan) (e : ℕ × Bool) :
    scanStep mk (mapScan mk g s) (g e.1, e.2) =
      (scanStep (fun c i => (c, i)) s e).map (mapScan mk g) := by
  obtain ⟨i, b⟩ := e
  obtain ⟨n, cur, rs⟩ := s
  cases b with
  | true => cases cur <;> simp [scanStep, mapScan, Except.map]
  | false =>
    by_cases h1 : n > 0
    · by_cases h2 : n - 1 = 0
      · cases cur <;> simp [scanStep, mapScan, Except.map, h1, h2]
      · simp [scanStep, mapScan, Except.map, h1, h2]
    · have : n = 0 := by omega
      simp [scanStep, mapScan, Except.map, this]

theorem scan_foldlM_map (mk : ℕ → ℕ → ℕ × ℕ) (g : ℕ → ℕ) (es : List (ℕ × Bool)) : ∀ s : Scan,
    (es.map (fun e => (g e.1, e.2))).foldlM (scanStep mk) (mapScan mk g s) =
      (es.foldlM (scanStep (fun c i => (c, i))) s).map (mapScan mk g) := by
  induction es with
  | nil => intro s; simp [Except.map, pure, Except.pure]
  | cons e es ih =>
    intro s
    rw [List.map_cons, List.foldlM_cons, List.foldlM_cons, scanStep_map]
    cases h : scanStep (fun c i => (c, i)) s e with
    | error x => simp [bind, Except.bind, Except.map]
    | ok s' =>
      simp only [bind, Except.bind, Except.map]
      rw [ih s']
      rfl

theorem scan_map (mk : ℕ → ℕ → ℕ × ℕ) (g : ℕ → ℕ) (last : ℕ) (es : List (ℕ × Bool))
    {R : List (ℕ × ℕ)} (h : scan (fun c i => (c, i)) last es = .ok R) :
    scan mk (g last) (es.map (fun e => (g e.1, e.2))) =
      .ok (R.map (fun p => mk (g p.1) (g p.2))) := by
  unfold scan at *
  have h0 : ({ n := 0, cur := none, ranges := [] } : Scan) =
      mapScan mk g { n := 0, cur := none, ranges := [] } := rfl
  rw [h0, scan_foldlM_map]
  cases hs : es.foldlM (scanStep (fun c i => (c, i))) { n := 0, cur := none, ranges := [] } with
  | error x => rw [hs] at h; simp [bind, Except.bind] at h
  | ok s =>
    rw [hs] at h
    cases hc : s.cur with
    | none =>
      simp [bind, Except.bind, hc, pure, Except.pure] at h
      subst h
      simp [bind, Except.bind, Except.map, mapScan, hc, pure, Except.pure]
    | some c =>
      simp [bind, Except.bind, hc, pure, Except.pure] at h
      subst h
      simp [bind, Except.bind, Except.map, mapScan, hc, pure, Except.pure]

/-- What both scans find together. -/
structure RangesOk (L : List (ℚ × Bool)) (R : List (ℕ × ℕ)) : Prop where
  rng : ∀ p ∈ R, p.1 ≤ p.2 ∧ p.2 < L.length
  cut : ∀ j, 0 < j → j < L.length → (∀ p ∈ R, ¬ (p.1 < j ∧ j ≤ p.2)) →
    SufOk (L.take j) ∧ PreOk (L.drop j)
  covy : ∀ i a, L[i]? = some (a, true) → ∃ p ∈ R, p.1 ≤ i ∧ i ≤ p.2

theorem componentRanges_ok (L : List (ℚ × Bool)) :
    ∃ R, componentRanges L = .ok R ∧ RangesOk L R := by
  obtain ⟨R1, e1, h1⟩ := scan_fwd L
  obtain ⟨R2, e2, h2⟩ := scan_fwd L.reverse
  have e3 := scan_map (fun c i => (i, c)) (fun j => L.length - 1 - j) _ _ e2
  rw [← enumLocs_reverse] at e3
  have hz : L.length - 1 - (L.reverse.length - 1) = 0 := by simp
  rw [hz] at e3
  refine ⟨_, by unfold componentRanges; rw [e1, e3]; rfl, ?_, ?_, ?_⟩
  · intro p hp
    rcases List.mem_append.1 hp with hp | hp
    · exact h1.rng p hp
    · obtain ⟨q, hq, rfl⟩ := List.mem_map.1 hp
      have := h2.rng q hq
      simp at this ⊢
      omega
  · intro j hj0 hj hr
    refine ⟨h1.cov j hj (fun p hp => hr p (List.mem_append_left _ hp)), ?_⟩
    have := h2.cov (L.length - j) (by simp; omega) (by
      intro q hq hin
      have hrq := h2.rng q hq
      have := hr _ (List.mem_append_right _ (List.mem_map.2 ⟨q, hq, rfl⟩))
      simp at this hrq
      omega)
    rw [List.take_reverse, sufOk_reverse] at this
    rwa [show L.length - (L.length - j) = j by omega] at this
  · intro i a hi
    obtain ⟨p, hp, h⟩ := h1.covy i a hi
    exact ⟨p, List.mem_append_left _ hp, h⟩

/-! ### The merge loop -/

/-- Elements `l..r`. -/
def seg (L : List (ℚ × Bool)) (l r : ℕ) : List (ℚ × Bool) := (L.take (r + 1)).drop l

/-- Contract of the component handlers. -/
def CompOk (L : List (ℚ × Bool)) (comp : ℚ → ℕ → ℕ → ℕ → Except PyErr ℚ) : Prop :=
  ∀ d seen l r, seen ≤ l → l ≤ r → r < L.length →
    (∀ i a, seen ≤ i → i < l → L[i]? ≠ some (a, true)) →
    (ysOf (seg L l r)).length ≤ (xsOf (seg L l r)).length →
    comp d seen l r =
      .ok (d + ((l : ℚ) - seen) + emd (xsOf (seg L l r)) (ysOf (seg L l r)))

theorem ysOf_eq_nil {G : List (ℚ × Bool)} (h : ∀ p ∈ G, p.2 = false) :
    ysOf G = [] ∧ (xsOf G).length = G.length := by
  induction G with
  | nil => simp
  | cons p G ih =>
    obtain ⟨a, b⟩ := p
    have hb : b = false := h (a, b) List.mem_cons_self
    subst hb
    obtain ⟨h1, h2⟩ := ih (fun p hp => h p (List.mem_cons_of_mem _ hp))
    simp [h1, h2]

theorem sufOk_of_x {G : List (ℚ × Bool)} (h : ∀ p ∈ G, p.2 = false) : SufOk G := by
  intro t ht
  have := (ysOf_eq_nil (G := t) (fun p hp => h p (ht.subset hp))).1
  simp [this]

theorem SufOk.suffix {P Q : List (ℚ × Bool)} (h : SufOk P) (hq : Q <:+ P) : SufOk Q :=
  fun t ht => h t (ht.trans hq)

theorem PreOk.prefix {P Q : List (ℚ × Bool)} (h : PreOk P) (hq : Q <+: P) : PreOk Q :=
  fun t ht => h t (ht.trans hq)

/-- All gap elements belong to the first bag. -/
theorem gap_x {L : List (ℚ × Bool)} {a b : ℕ}
    (h : ∀ i c, a ≤ i → i < b → L[i]? ≠ some (c, true)) : ∀ p ∈ (L.take b).drop a, p.2 = false := by
  intro p hp
  obtain ⟨i, hi, e⟩ := List.mem_iff_getElem.1 hp
  simp only [List.length_drop, List.length_take] at hi
  rw [List.getElem_drop, List.getElem_take] at e
  obtain ⟨c, f⟩ := p
  cases f with
  | false => rfl
  | true =>
    refine absurd ?_ (h (a + i) c (by omega) (by omega))
    rw [List.getElem?_eq_getElem (by omega), e]

theorem drop_split {L : List (ℚ × Bool)} {a b : ℕ} (h : a ≤ b) :
    L.drop a = (L.take b).drop a ++ L.drop b := by
  conv_lhs => rw [← List.take_append_drop b L]
  rcases Nat.le_total b L.length with hb | hb
  · rw [List.drop_append_of_le_length (by simp; omega)]
  · rw [List.drop_of_length_le hb, List.append_nil, List.append_nil]

/-- One component: what is left after it. -/
theorem component_cost {L : List (ℚ × Bool)} {R : List (ℕ × ℕ)} (hL : L.Pairwise LocLe)
    (hR : RangesOk L R) {seen l r : ℕ} (h1 : seen ≤ l) (h2 : l ≤ r) (h3 : r < L.length)
    (hgap : ∀ i a, seen ≤ i → i < l → L[i]? ≠ some (a, true))
    (hl : ∀ p ∈ R, ¬ (p.1 < l ∧ l ≤ p.2)) (hr : ∀ p ∈ R, ¬ (p.1 < r + 1 ∧ r + 1 ≤ p.2)) :
    emd (xsOf (L.drop seen)) (ysOf (L.drop seen)) = ((l : ℚ) - seen) +
      emd (xsOf (seg L l r)) (ysOf (seg L l r)) +
      emd (xsOf (L.drop (r + 1))) (ysOf (L.drop (r + 1))) := by
  have hG := gap_x hgap
  have e1 : L.drop seen = (L.take l).drop seen ++ L.drop l := drop_split h1
  have e2 : L.drop l = seg L l r ++ L.drop (r + 1) := drop_split (by omega)
  have hd1 : (L.drop seen).Pairwise LocLe := hL.sublist (List.drop_sublist _ _)
  have hd2 : (L.drop l).Pairwise LocLe := hL.sublist (List.drop_sublist _ _)
  have a1 : emd (xsOf (L.drop seen)) (ysOf (L.drop seen)) = ((l : ℚ) - seen) +
      emd (xsOf (L.drop l)) (ysOf (L.drop l)) := by
    rcases Nat.eq_zero_or_pos l with h0 | h0
    · subst h0
      obtain rfl : seen = 0 := by omega
      simp
    · rw [e1] at hd1
      have := emd_split hd1 (sufOk_of_x hG) (hR.cut l h0 (by omega) hl).2
      rw [e1, this]
      congr 1
      obtain ⟨hy, hx⟩ := ysOf_eq_nil hG
      rw [hy, emd_nil_right, hx]
      simp only [List.length_drop, List.length_take]
      rw [min_eq_left (by omega), Nat.cast_sub h1]
  have a2 : emd (xsOf (L.drop l)) (ysOf (L.drop l)) = emd (xsOf (seg L l r)) (ysOf (seg L l r)) +
      emd (xsOf (L.drop (r + 1))) (ysOf (L.drop (r + 1))) := by
    rcases Nat.lt_or_ge (r + 1) L.length with h | h
    · have hc := hR.cut (r + 1) (by omega) h hr
      rw [e2] at hd2
      rw [e2]
      exact emd_split hd2 (hc.1.suffix (List.drop_suffix _ _)) hc.2
    · have : L.drop (r + 1) = [] := List.drop_of_length_le h
      rw [e2, this]
      simp [emd_nil_left]
  rw [a1, a2]
  ring

theorem component_len {L : List (ℚ × Bool)} {R : List (ℕ × ℕ)}
    (hN : (ysOf L).length ≤ (xsOf L).length)
    (hR : RangesOk L R) {l r : ℕ} (h2 : l ≤ r) (h3 : r < L.length)
    (hl : ∀ p ∈ R, ¬ (p.1 < l ∧ l ≤ p.2)) (hr : ∀ p ∈ R, ¬ (p.1 < r + 1 ∧ r + 1 ≤ p.2)) :
    (ysOf (seg L l r)).length ≤ (xsOf (seg L l r)).length := by
  rcases Nat.eq_zero_or_pos l with h0 | h0
  · subst h0
    unfold seg
    rw [List.drop_zero]
    rcases Nat.lt_or_ge (r + 1) L.length with h | h
    · exact (hR.cut (r + 1) (by omega) h hr).1 _ (List.suffix_refl _)
    · rw [List.take_of_length_le h]; exact hN
  · apply (hR.cut l h0 (by omega) hl).2
    unfold seg
    rw [List.drop_take]
    exact List.take_prefix _ _

theorem mergeLoop_ok {L : List (ℚ × Bool)} {R : List (ℕ × ℕ)} (hL : L.Pairwise LocLe)
    (hN : (ysOf L).length ≤ (xsOf L).length) (hR : RangesOk L R)
    {comp : ℚ → ℕ → ℕ → ℕ → Except PyErr ℚ} (hcomp : CompOk L comp) (rest : List (ℕ × ℕ)) :
    ∀ (d : ℚ) (seen l r : ℕ), seen ≤ l → l ≤ r → r < L.length →
      (∀ p ∈ R, p.2 < seen ∨ (l ≤ p.1 ∧ p.2 ≤ r) ∨ p ∈ rest) →
      (∀ p ∈ rest, l ≤ p.1 ∧ p ∈ R) → rest.Pairwise (fun p q => p.1 ≤ q.1) →
      ∃ d' s', mergeLoop comp d seen l r rest = .ok (d', s') ∧ s' ≤ L.length ∧
        d' + ((L.length : ℚ) - s') = d + emd (xsOf (L.drop seen)) (ysOf (L.drop seen)) ∧
        (∀ (i : ℕ) (a : ℚ), s' ≤ i → L[i]? ≠ some (a, true)) := by
  induction rest with
  | nil =>
    intro d seen l r h1 h2 h3 hp _ _
    have hp' : ∀ p ∈ R, p.2 < seen ∨ (l ≤ p.1 ∧ p.2 ≤ r) := by
      intro p hpR
      rcases hp p hpR with h | h | h
      · exact Or.inl h
      · exact Or.inr h
      · simp at h
    have hgap : ∀ i a, seen ≤ i → i < l → L[i]? ≠ some (a, true) := by
      intro i a hi1 hi2 hi
      obtain ⟨p, hpR, h4⟩ := hR.covy i a hi
      have := hp' p hpR
      omega
    have hl : ∀ p ∈ R, ¬ (p.1 < l ∧ l ≤ p.2) := fun p hpR => by have := hp' p hpR; omega
    have hr : ∀ p ∈ R, ¬ (p.1 < r + 1 ∧ r + 1 ≤ p.2) := fun p hpR => by have := hp' p hpR; omega
    have hend : ∀ i a, r + 1 ≤ i → L[i]? ≠ some (a, true) := by
      intro i a hi1 hi
      obtain ⟨p, hpR, h4⟩ := hR.covy i a hi
      have := hp' p hpR
      omega
    have hc := hcomp d seen l r h1 h2 h3 hgap (component_len hN hR h2 h3 hl hr)
    refine ⟨_, r + 1, by unfold mergeLoop; rw [hc]; rfl, by omega, ?_, hend⟩
    rw [component_cost hL hR h1 h2 h3 hgap hl hr]
    have hx : ∀ p ∈ L.drop (r + 1), p.2 = false := by
      have := gap_x (L := L) (a := r + 1) (b := L.length) (fun i c hi _ => hend i c hi)
      rwa [List.take_length] at this
    obtain ⟨hy, hx'⟩ := ysOf_eq_nil hx
    rw [hy, emd_nil_right, hx', List.length_drop, Nat.cast_sub (by omega)]
    ring
  | cons q rest ih =>
    obtain ⟨l', r'⟩ := q
    intro d seen l r h1 h2 h3 hp hrest hsort
    rw [List.pairwise_cons] at hsort
    have hq := hrest (l', r') List.mem_cons_self
    have hq' := hR.rng _ hq.2
    simp only at hq hq'
    unfold mergeLoop
    split_ifs with hle
    · refine ih d seen l (max r r') h1 (by omega) (by omega) ?_
        (fun p hp => hrest p (List.mem_cons_of_mem _ hp)) hsort.2
      intro p hpR
      rcases hp p hpR with h | h | h
      · exact Or.inl h
      · exact Or.inr (Or.inl ⟨h.1, by omega⟩)
      · rcases List.mem_cons.1 h with rfl | h
        · exact Or.inr (Or.inl ⟨hq.1, by simp⟩)
        · exact Or.inr (Or.inr h)
    · have hp' : ∀ p ∈ R, p.2 < seen ∨ (l ≤ p.1 ∧ p.2 ≤ r) ∨ l' ≤ p.1 := by
        intro p hpR
        rcases hp p hpR with h | h | h
        · exact Or.inl h
        · exact Or.inr (Or.inl h)
        · rcases List.mem_cons.1 h with rfl | h
          · exact Or.inr (Or.inr (le_refl _))
          · exact Or.inr (Or.inr (hsort.1 p h))
      have hgap : ∀ i a, seen ≤ i → i < l → L[i]? ≠ some (a, true) := by
        intro i a hi1 hi2 hi
        obtain ⟨p, hpR, h4⟩ := hR.covy i a hi
        have := hp' p hpR
        omega
      have hl : ∀ p ∈ R, ¬ (p.1 < l ∧ l ≤ p.2) := fun p hpR => by have := hp' p hpR; omega
      have hr : ∀ p ∈ R, ¬ (p.1 < r + 1 ∧ r + 1 ≤ p.2) := fun p hpR => by
        have := hp' p hpR; omega
      have hc := hcomp d seen l r h1 h2 h3 hgap (component_len hN hR h2 h3 hl hr)
      rw [hc]
      obtain ⟨d', s', e, h4, h5, h6⟩ := ih
        (d + ((l : ℚ) - seen) + emd (xsOf (seg L l r)) (ysOf (seg L l r))) (r + 1) l' r'
        (by omega) hq'.1 hq'.2 (by
          intro p hpR
          rcases hp p hpR with h | h | h
          · exact Or.inl (by omega)
          · exact Or.inl (by omega)
          · rcases List.mem_cons.1 h with rfl | h
            · exact Or.inr (Or.inl ⟨le_refl _, le_refl _⟩)
            · exact Or.inr (Or.inr h))
        (fun p hp => ⟨hsort.1 p hp, (hrest p (List.mem_cons_of_mem _ hp)).2⟩) hsort.2
      refine ⟨d', s', e, h4, ?_, h6⟩
      rw [h5, component_cost hL hR h1 h2 h3 hgap hl hr]
      ring

instance : Std.Total rangeLe := ⟨by intro a b; unfold rangeLe; omega⟩
instance : IsTrans (ℕ × ℕ) rangeLe := ⟨by intro a b c; unfold rangeLe; omega⟩

theorem processRanges_ok {L : List (ℚ × Bool)} {R : List (ℕ × ℕ)} (hL : L.Pairwise LocLe)
    (hN : (ysOf L).length ≤ (xsOf L).length) (hR : RangesOk L R)
    {comp : ℚ → ℕ → ℕ → ℕ → Except PyErr ℚ} (hcomp : CompOk L comp) :
    ∃ d' s', processRanges comp R = .ok (d', s') ∧ s' ≤ L.length ∧
        d' + ((L.length : ℚ) - s') = emd (xsOf L) (ysOf L) ∧
        (∀ (i : ℕ) (a : ℚ), s' ≤ i → L[i]? ≠ some (a, true)) := by
  have hperm := List.perm_insertionSort rangeLe R
  have hsort := List.pairwise_insertionSort rangeLe R
  unfold processRanges
  cases hS : R.insertionSort rangeLe with
  | nil =>
    rw [hS] at hperm
    have hRn : R = [] := hperm.symm.eq_nil
    have hno : ∀ (i : ℕ) (a : ℚ), L[i]? ≠ some (a, true) := by
      intro i a hi
      obtain ⟨p, hp, _⟩ := hR.covy i a hi
      simp [hRn] at hp
    refine ⟨0, 0, rfl, by omega, ?_, fun i a _ => hno i a⟩
    have hx : ∀ p ∈ L, p.2 = false := by
      have := gap_x (L := L) (a := 0) (b := L.length) (fun i c _ _ => hno i c)
      rwa [List.take_length] at this
    obtain ⟨hy, hx'⟩ := ysOf_eq_nil hx
    rw [hy, emd_nil_right, hx']
    simp
  | cons q rest =>
    obtain ⟨l, r⟩ := q
    rw [hS] at hperm hsort
    have hmem : ∀ p, p ∈ R ↔ p ∈ (l, r) :: rest := fun p => (hperm.mem_iff).symm
    rw [List.pairwise_cons] at hsort
    have hlr := hR.rng (l, r) ((hmem _).2 List.mem_cons_self)
    have le1 : ∀ p q : ℕ × ℕ, rangeLe p q → p.1 ≤ q.1 := by
      intro p q h; unfold rangeLe at h; omega
    have := mergeLoop_ok hL hN hR hcomp rest 0 0 l r (by omega) hlr.1 hlr.2 (by
      intro p hp
      rcases List.mem_cons.1 ((hmem p).1 hp) with rfl | h
      · exact Or.inr (Or.inl ⟨le_refl _, le_refl _⟩)
      · exact Or.inr (Or.inr h))
      (fun p hp => ⟨le1 _ _ (hsort.1 p hp), (hmem p).2 (List.mem_cons_of_mem _ hp)⟩)
      (hsort.2.imp (fun h => le1 _ _ h))
    simpa using this

end Verif
