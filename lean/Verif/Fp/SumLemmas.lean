import Verif.Fp.VarProps
import Verif.Fp.IndexProps
import Verif.Fp.BowProps

/-!
# Results that do not depend on how `sum` rounds: lemmas
-/

namespace Verif
namespace Fp

open GramSpec IndexSpec

/-! ## Sums -/

/-- Up to two non-negative floats are added alike. -/
theorem sum_pair {v : List ℚ} (hv : ∀ x ∈ v, 0 ≤ x ∧ rne x = x) (hl : v.length ≤ 2) :
    binary64.sum v = binary64c.sum v := by
  match v, hl, hv with
  | [], _, _ => decide +kernel
  | [a], _, hv =>
    rw [binary64.sum_single a (hv a (by simp)).2, binary64c.sum_single a (hv a (by simp)).2]
  | [a, b], _, hv =>
    change plainSum rne [a, b] = compSum rne [a, b]
    obtain ⟨ha, hfa⟩ := hv a (by simp)
    obtain ⟨hb, hfb⟩ := hv b (by simp)
    rw [comp_pair ha hfa hb hfb]
    change rne (rne (0 + a) + b) = rne (a + b)
    rw [zero_add, hfa]

theorem zipCostF_pair {xs ys : List ℚ} (h : min xs.length ys.length ≤ 2) :
    zipCostF binary64 xs ys = zipCostF binary64c xs ys := by
  unfold zipCostF sumF
  change binary64.sum _ = binary64c.sum (List.zipWith (fun x y => |binary64.fl (x - y)|) xs ys)
  refine sum_pair ?_ (by rwa [List.length_zipWith])
  intro v hv
  rw [← List.map_uncurry_zip_eq_zipWith] at hv
  obtain ⟨⟨x, y⟩, hp, rfl⟩ := List.mem_map.1 hv
  refine ⟨abs_nonneg _, ?_⟩
  change binary64.fl |binary64.fl (x - y)| = |binary64.fl (x - y)|
  rw [abs_fl, binary64.idem]

theorem comboCostsF_pair {xs ys : List ℚ} (h : ys.length ≤ 2) :
    comboCostsF binary64 xs ys = comboCostsF binary64c xs ys := by
  unfold comboCostsF
  congr 1
  exact List.map_congr_left (fun c _ => zipCostF_pair ((min_le_right _ _).trans h))

theorem emdSlowF_pair {xs ys : List ℚ} (h : min xs.length ys.length ≤ 2) :
    emdSlowF binary64 xs ys = emdSlowF binary64c xs ys := by
  unfold emdSlowF
  split_ifs with hl
  · dsimp only
    rw [comboCostsF_pair (by rw [length_pySorted]; omega)]
    rfl
  · dsimp only
    rw [comboCostsF_pair (by rw [length_pySorted]; omega)]
    rfl

theorem emdShellF_pair {main main' : List ℚ → List ℚ → Except PyErr ℚ}
    (hm : ∀ xs ys, ys.length ≤ 2 → main xs ys = main' xs ys) {xs ys : List ℚ}
    (h : min xs.length ys.length ≤ 2) :
    emdShellF binary64 main xs ys = emdShellF binary64c main' xs ys := by
  have key : ∀ xs ys : List ℚ, ys.length ≤ 2 → ys.length ≤ xs.length →
      emdShellF binary64 main xs ys = emdShellF binary64c main' xs ys := by
    intro xs ys h hl
    unfold emdShellF
    rw [if_neg (not_lt.2 hl)]
    match ys, h, hl with
    | [], _, _ => rfl
    | [y], _, _ => rfl
    | y :: y' :: ys, h, _ =>
      dsimp only
      obtain ⟨C, -, p2, -⟩ := removeCommon_perm (pySorted xs) (pySorted (y :: y' :: ys))
      have hr : (removeCommon (pySorted xs) (pySorted (y :: y' :: ys))).2.length ≤ 2 := by
        have := p2.length_eq
        rw [List.length_append, length_pySorted] at this
        omega
      split_ifs with he
      · rw [zipCostF_pair (by
          rw [List.length_reverse, List.length_reverse, length_pySorted, length_pySorted]
          exact (min_le_right _ _).trans h)]
      · generalize removeCommon (pySorted xs) (pySorted (y :: y' :: ys)) = r at *
        obtain ⟨r1, r2⟩ := r
        match r2, hr with
        | [], _ => rfl
        | [z], _ => rfl
        | z :: z' :: zs, hr => exact hm _ _ hr
  rcases lt_or_ge xs.length ys.length with hl | hl
  · rw [emdShellF_comm main xs ys, emdShellF_comm main' xs ys]
    exact key ys xs (by omega) hl.le
  · exact key xs ys (by omega) hl

theorem oldSmallF_eq (d : ℚ) (xs ys : List ℚ) :
    oldSmallF binary64 d xs ys = oldSmallF binary64c d xs ys := by
  induction ys generalizing d xs with
  | nil => simp only [oldSmallF]
  | cons y ys ih =>
    cases xs with
    | nil => simp only [oldSmallF]
    | cons x xs =>
      unfold oldSmallF
      rw [ih, ih]
      rfl

theorem oldLargeF_eq (d : ℚ) (xs ys : List ℚ) :
    oldLargeF binary64 d xs ys = oldLargeF binary64c d xs ys := by
  induction ys generalizing d xs with
  | nil => simp only [oldLargeF]
  | cons y ys ih =>
    cases xs with
    | nil => simp only [oldLargeF]
    | cons x xs =>
      unfold oldLargeF
      rw [ih]
      rfl

theorem greedySmallF_eq (d : ℚ) (xs ys : List ℚ) :
    greedySmallF binary64 d xs ys = greedySmallF binary64c d xs ys := by
  induction ys generalizing d xs with
  | nil => cases xs <;> simp only [greedySmallF]
  | cons y ys ih =>
    cases xs with
    | nil => simp only [greedySmallF]
    | cons x xs =>
      unfold greedySmallF
      rw [ih, ih]
      rfl

theorem greedyLargeF_eq (d : ℚ) (xs ys : List ℚ) :
    greedyLargeF binary64 d xs ys = greedyLargeF binary64c d xs ys := by
  induction ys generalizing d xs with
  | nil => cases xs <;> simp only [greedyLargeF]
  | cons y ys ih =>
    cases xs with
    | nil => simp only [greedyLargeF]
    | cons x xs =>
      unfold greedyLargeF
      rw [ih]
      rfl

theorem hybridMainF_eq (xs ys : List ℚ) : hybridMainF binary64 xs ys = hybridMainF binary64c xs ys := by
  have e1 : greedySmallF binary64 = greedySmallF binary64c := by
    funext d xs ys; exact greedySmallF_eq d xs ys
  have e2 : greedyLargeF binary64 = greedyLargeF binary64c := by
    funext d xs ys; exact greedyLargeF_eq d xs ys
  have e3 : hybridComponentF binary64 = hybridComponentF binary64c := by
    funext L d seen l r
    unfold hybridComponentF
    rw [e1, e2]
    rfl
  unfold hybridMainF
  rw [e3]
  rfl

theorem oldSmallF_length {R : Rounding} {d : ℚ} {xs ys : List ℚ} {r : ℚ × List ℚ × List ℚ}
    (h : oldSmallF R d xs ys = .ok r) : r.2.2.length ≤ ys.length := by
  induction ys generalizing d xs with
  | nil =>
    simp only [oldSmallF] at h
    injection h with h; subst h; exact le_rfl
  | cons y ys ih =>
    cases xs with
    | nil => simp [oldSmallF] at h
    | cons x xs =>
      unfold oldSmallF at h
      split_ifs at h with h1
      · exact (ih h).trans (by simp)
      · split at h
        · split_ifs at h
          · exact (ih h).trans (by simp)
          · injection h with h; subst h; exact le_rfl
        · injection h with h; subst h; exact le_rfl

theorem oldLargeF_length {R : Rounding} {d : ℚ} {xs ys : List ℚ} {r : ℚ × List ℚ × List ℚ}
    (h : oldLargeF R d xs ys = .ok r) : r.2.2.length ≤ ys.length := by
  induction ys generalizing d xs with
  | nil =>
    simp only [oldLargeF] at h
    injection h with h; subst h; exact le_rfl
  | cons y ys ih =>
    cases xs with
    | nil => simp [oldLargeF] at h
    | cons x xs =>
      unfold oldLargeF at h
      split_ifs at h with h1
      · exact (ih h).trans (by simp)
      · split at h
        · split_ifs at h
          · exact (ih h).trans (by simp)
          · injection h with h; subst h; exact le_rfl
        · injection h with h; subst h; exact le_rfl

theorem oldComponentF_pair {L : List (ℚ × Bool)} (hL : (ysOf L).length ≤ 2) :
    oldComponentF binary64 L = oldComponentF binary64c L := by
  funext d seen l r
  have e1 : oldSmallF binary64 = oldSmallF binary64c := by funext d xs ys; exact oldSmallF_eq d xs ys
  have e2 : oldLargeF binary64 = oldLargeF binary64c := by funext d xs ys; exact oldLargeF_eq d xs ys
  unfold oldComponentF
  rw [← e1, ← e2]
  change (do
    let g ← oldSmallF binary64 (if l > seen then binary64.fl (d + ((l : ℚ) - seen)) else d) _ _
    _) = (do
    let g ← oldSmallF binary64 (if l > seen then binary64.fl (d + ((l : ℚ) - seen)) else d) _ _
    _)
  cases eG : oldSmallF binary64 (if l > seen then binary64.fl (d + ((l : ℚ) - seen)) else d)
      (sliceOf L l r false) (sliceOf L l r true) with
  | error e => rfl
  | ok g =>
    simp only [bind, Except.bind]
    cases eH : oldLargeF binary64 g.1 g.2.1.reverse g.2.2.reverse with
    | error e => rfl
    | ok h =>
      have l1 := oldSmallF_length eG
      have l2 := oldLargeF_length eH
      have l3 : (sliceOf L l r true).length ≤ (ysOf L).length := by
        rw [sliceOf_true]
        unfold ysOf seg
        exact ((((List.drop_sublist _ _).trans (List.take_sublist _ _)).filter _).map _).length_le
      rw [List.length_reverse] at l2
      have hc : comboCostsF binary64 h.2.1.reverse h.2.2.reverse =
        comboCostsF binary64c h.2.1.reverse h.2.2.reverse := comboCostsF_pair (by
          rw [List.length_reverse]; omega)
      simp only
      rw [hc]
      rfl

theorem oldMainF_pair {xs ys : List ℚ} (h : ys.length ≤ 2) :
    oldMainF binary64 xs ys = oldMainF binary64c xs ys := by
  unfold oldMainF
  dsimp only
  rw [oldComponentF_pair (L := locations xs ys) (by rw [(ysOf_locations xs ys).length_eq]; exact h)]
  rfl

/-! ## Lookups -/

section
variable {R : Rounding} {cf : List Char → List Char} {st stF : WL} {S : Type} [LinearOrder S]

/-- A lookup depends on the aggregate only through its values on the rows of the words. -/
theorem lookupSimilarityF_congr (hi : WLInv cf st) (hR : Rounded R st stF) {agg agg' : List ℚ → S}
    {q : List Char} {normalize : Bool}
    (h1 : ∀ v ∈ st.wordList, agg (lowerVecF R st.nList normalize q v) =
      agg' (lowerVecF R st.nList normalize q v))
    (h2 : ∀ v ∈ st.wordList, agg ((lowerVecF R st.nList normalize q v).map (fun x => R.fl (x * 2))) =
      agg' ((lowerVecF R st.nList normalize q v).map (fun x => R.fl (x * 2))))
    (h3 : ∀ v ∈ st.wordList, agg (scoreVecF R st.nList normalize q v) =
      agg' (scoreVecF R st.nList normalize q v)) (k : ℕ) :
    lookupSimilarityF R agg stF q k normalize = lookupSimilarityF R agg' stF q k normalize := by
  obtain ⟨ms, hms, hperm⟩ := minScoresF_perm (R := R) hi q normalize
  have hms' : minScoresF R stF q normalize = .ok ms := by
    obtain ⟨Q, rfl, _⟩ := hR; exact hms
  have hrow : ∀ p ∈ ms, ∃ v ∈ st.wordList, p.2 = lowerVecF R st.nList normalize q v := by
    intro p hp
    obtain ⟨⟨v, i⟩, hv, rfl⟩ := List.mem_map.1 (hperm.mem_iff.1 hp)
    exact ⟨v, List.mem_of_getElem? (mem_eligible.1 hv).1, rfl⟩
  have m1 : ms.map (fun p => agg p.2) = ms.map (fun p => agg' p.2) := by
    refine List.map_congr_left (fun p hp => ?_)
    obtain ⟨v, hv, e⟩ := hrow p hp
    rw [e, h1 v hv]
  have m2 : ∀ t, survivorsF R agg ms t = survivorsF R agg' ms t := by
    intro t
    unfold survivorsF
    congr 1
    refine List.filter_congr (fun p hp => ?_)
    obtain ⟨v, hv, e⟩ := hrow p hp
    rw [e, h2 v hv]
  unfold lookupSimilarityF
  simp only [hms', bind, Except.bind]
  rw [m1]
  split_ifs <;> first | rfl | skip
  cases minAcceptable (ms.map (fun p => agg' p.2)) k with
  | error e => rfl
  | ok t =>
    dsimp only
    rw [m2]
    by_cases hone : ∃ n ∈ stF.nList, (getNGrams q n).length = 1
    · rw [matchScoresF_error q _ hone]
    · obtain ⟨sc, hsc, -, hscm⟩ := matchScoresF_spec hi hR q (survivorsF R agg' ms t) (by
        intro n hn h
        exact hone ⟨n, by rw [hR.eqs.1]; exact hn, h⟩)
      simp only [hsc]
      cases en : sc.mapM (normalizeRowF R stF q normalize) with
      | error e => rfl
      | ok normed =>
        dsimp only
        congr 1
        refine List.map_congr_left (fun p hp => ?_)
        obtain ⟨⟨oi, v⟩, hx, hy⟩ := (mapM_ok_facts en).2 p hp
        obtain ⟨-, w, hw, -, rfl⟩ := (hscm oi v).1 hx
        rw [normalizeRowF_spec hi hR q normalize hw] at hy
        split_ifs at hy
        injection hy with hy
        rw [← hy]
        dsimp only
        rw [h3 w (List.mem_of_getElem? hw)]

end

theorem mean1F_pair {v : List ℚ} (hv : Floats binary64 v) (hl : v.length ≤ 2) :
    mean1F binary64 v = mean1F binary64c v := by
  unfold mean1F sumF
  rw [sum_pair hv hl]
  rfl

end Fp
end Verif
