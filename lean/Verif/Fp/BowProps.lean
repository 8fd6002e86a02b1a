import Verif.Fp.BowLemmas

/-!
# Properties C137–C140: `bow_ngram_movers_distance` in rounded arithmetic

`bowNmdF R lsa a b n invert normalize` models the call with every float operation rounded by `R`;
`lsa` is the assignment solver. `LsaComplete` only asks that it returns a complete matching,
`LsaNear ε` that the total of that matching is at most `ε` above the least one (`ε = 0` is the
contract `LsaOk` of the exact model).
-/

namespace Verif
namespace Fp

open BowSpec GramSpec

/-! ### C137: exceptions and range -/

theorem mapM_error_iff {β γ δ : Type} {f : β → Except PyErr γ} {g : β → Except PyErr δ}
    (h : ∀ x e, f x = .error e ↔ g x = .error e) (l : List β) (e : PyErr) :
    l.mapM f = .error e ↔ l.mapM g = .error e := by
  induction l with
  | nil => simp [pure, Except.pure]
  | cons x l ih =>
    rw [List.mapM_cons, List.mapM_cons]
    cases hf : f x with
    | error e' =>
      rw [(h x e').1 hf]
      simp [bind, Except.bind]
    | ok r =>
      cases hg : g x with
      | error e' => rw [(h x e').2 hg] at hf; cases hf
      | ok r' =>
        cases hl : l.mapM f with
        | error e' =>
          cases hl' : l.mapM g with
          | error e'' =>
            rw [hl, hl'] at ih
            simp only [bind, Except.bind]
            simpa using ih
          | ok _ =>
            rw [hl, hl'] at ih
            simp only [bind, Except.bind, pure, Except.pure]
            simpa using ih
        | ok _ =>
          cases hl' : l.mapM g with
          | error e'' =>
            rw [hl, hl'] at ih
            simp only [bind, Except.bind, pure, Except.pure]
            simpa using ih
          | ok _ => simp [bind, Except.bind, pure, Except.pure]

theorem mapM_ok_facts {β γ : Type} {f : β → Except PyErr γ} {l : List β} {r : List γ}
    (h : l.mapM f = .ok r) : r.length = l.length ∧ ∀ y ∈ r, ∃ x ∈ l, f x = .ok y := by
  induction l generalizing r with
  | nil =>
    simp only [List.mapM_nil, pure, Except.pure, Except.ok.injEq] at h
    subst h; simp
  | cons x l ih =>
    rw [List.mapM_cons] at h
    cases hf : f x with
    | error e => rw [hf] at h; simp [bind, Except.bind] at h
    | ok y =>
      cases hl : l.mapM f with
      | error e => rw [hf, hl] at h; simp [bind, Except.bind] at h
      | ok ys =>
        rw [hf, hl] at h
        simp only [bind, Except.bind, pure, Except.pure, Except.ok.injEq] at h
        subst h
        obtain ⟨h1, h2⟩ := ih hl
        refine ⟨by simp [h1], ?_⟩
        intro z hz
        rcases List.mem_cons.1 hz with rfl | hz
        · exact ⟨x, List.mem_cons_self, hf⟩
        · obtain ⟨u, hu, e⟩ := h2 z hz
          exact ⟨u, List.mem_cons_of_mem _ hu, e⟩

theorem bowCellF_error_iff (R : Rounding) (k v w : PyVal) (e : PyErr) :
    bowCellF R k v w = .error e ↔ bowCell k v w = .error e := by
  have h := fun e => C104_nmd_float_raises R v w k false true e
  unfold bowCellF bowCell
  cases hf : nmdF R v w k false true with
  | error e' =>
    rw [(h e').1 hf]
    cases e' <;> simp
  | ok r =>
    cases hg : nmd v w k false true with
    | error e' => rw [(h e').2 hg] at hf; cases hf
    | ok r' => simp

/-- C137. Rounding changes nothing about exceptions: for all arguments, valid or not, the computed
call raises exactly the exception the exact one raises, whatever matching either solver returns. -/
theorem C137_float_bow_raises (R : Rounding) {lsa lsa' : List (List ℚ) → List (ℕ × ℕ)}
    (hl : LsaComplete lsa) (hl' : LsaOk lsa') (a b : List PyVal) (k : PyVal)
    (invert normalize : Bool) (e : PyErr) :
    bowNmdF R lsa a b k invert normalize = .error e ↔
      bowNmd lsa' a b k invert normalize = .error e := by
  have hce : ∀ e, bowCostsF R k a b = .error e ↔ bowCosts k a b = .error e := by
    intro e
    unfold bowCostsF bowCosts
    exact mapM_error_iff (fun x e => mapM_error_iff (fun y e => bowCellF_error_iff R k x y e) b e) a e
  cases hm : bowCostsF R k a b with
  | error e' =>
    have := (hce e').1 hm
    simp [bowNmdF, bowNmd, hm, this, bind, Except.bind]
  | ok m =>
    obtain ⟨h1, h2⟩ := mapM_ok_facts hm
    rw [bowNmdF_of_costs hl hm h1 (fun row hr => by
      obtain ⟨x, _, hx⟩ := h2 row hr
      exact (mapM_ok_facts hx).1)]
    have hok : ∃ r, bowCosts k a b = .ok r := by
      cases hc : bowCosts k a b with
      | error e' => rw [(hce e').2 hc] at hm; cases hm
      | ok r => exact ⟨r, rfl⟩
    rw [bowCosts_ok_iff] at hok
    have hr := C50_bow_raises_iff hl' a b k invert normalize
    by_cases hE : a = [] ∧ b = [] ∧ normalize = true
    · obtain ⟨rfl, rfl, rfl⟩ := hE
      simp [bowResultF, bowNmd, bowCosts, bind, Except.bind, pure, Except.pure, throw, throwThe,
        MonadExceptOf.throw]
    · have hno : ¬ ∃ e, bowNmd lsa' a b k invert normalize = .error e := by
        rw [hr]
        rintro (⟨ha, hb, hv⟩ | h)
        · obtain ⟨x, hx⟩ := List.exists_mem_of_ne_nil _ ha
          obtain ⟨y, hy⟩ := List.exists_mem_of_ne_nil _ hb
          exact hv ⟨fun v hv => (hok v hv y hy).1, fun w hw => (hok x hx w hw).2.1,
            (hok x hx y hy).2.2⟩
        · exact hE h
      constructor
      · intro h
        exfalso
        apply hE
        unfold bowResultF at h
        cases normalize
        · simp at h
        · simp only [if_true] at h
          by_cases hz : max a.length b.length = 0
          · exact ⟨List.length_eq_zero_iff.1 (by omega), List.length_eq_zero_iff.1 (by omega), rfl⟩
          · rw [if_neg hz] at h; cases h
      · intro h
        exact absurd ⟨e, h⟩ hno

theorem abs_len_sub (x y : ℕ) : |(x : ℚ) - y| = ((max x y - min x y : ℕ) : ℚ) := by
  rw [Nat.cast_sub (min_le_max), Nat.cast_max, Nat.cast_min, max_sub_min_eq_abs, abs_sub_comm]

theorem picked_range {R : Rounding} {lsa : List (List ℚ) → List (ℕ × ℕ)} (hl : LsaComplete lsa)
    {a b : List (List Char)} {n : ℤ} (hn : 2 ≤ n) (ha : ∀ w ∈ a, Clean w ∧ Small n w)
    (hb : ∀ w ∈ b, Clean w ∧ Small n w) : ∀ c ∈ bowPicked R lsa n a b, 0 ≤ c ∧ c ≤ 1 := by
  intro c hc
  obtain ⟨v, hv, w, hw, rfl⟩ := mem_bowPicked hl hc
  exact bowDistF_range hn (ha v hv).1 (hb w hw).1 (ha v hv).2 (hb w hw).2

/-- The two plain scores, as loops over the chosen costs. -/
theorem bow_plain {R : Rounding} {lsa : List (List ℚ) → List (ℕ × ℕ)} (hl : LsaComplete lsa)
    {a b : List (List Char)} {n : ℤ} (hn : 2 ≤ n) (ha : ∀ w ∈ a, Clean w) (hb : ∀ w ∈ b, Clean w)
    (invert : Bool) :
    bowNmdF R lsa (a.map .str) (b.map .str) (.int n) invert false = .ok (if invert then
        (bowPicked R lsa n a b).foldl (fun o c => R.fl (o - c)) (min (a.length : ℚ) b.length)
      else (bowPicked R lsa n a b).foldl (fun o c => R.fl (o + c)) |(a.length : ℚ) - b.length|) := by
  rw [bowNmdF_valid hl ha hb hn]; rfl

/-- A normalised score is the plain score divided by the size of the larger bag and rounded. -/
theorem bow_norm {R : Rounding} {lsa : List (List ℚ) → List (ℕ × ℕ)} (hl : LsaComplete lsa)
    {a b : List (List Char)} {n : ℤ} (hn : 2 ≤ n) (ha : ∀ w ∈ a, Clean w) (hb : ∀ w ∈ b, Clean w)
    (hne : ¬ (a = [] ∧ b = [])) {invert : Bool} {x : ℚ}
    (h : bowNmdF R lsa (a.map .str) (b.map .str) (.int n) invert false = .ok x) :
    bowNmdF R lsa (a.map .str) (b.map .str) (.int n) invert true =
      .ok (R.fl (x / max (a.length : ℚ) b.length)) := by
  have hpos : max a.length b.length ≠ 0 := by
    have : 0 < max a.length b.length := by
      rw [lt_max_iff, List.length_pos_iff, List.length_pos_iff]
      tauto
    omega
  rw [bow_plain hl hn ha hb] at h
  injection h with h
  rw [bowNmdF_valid hl ha hb hn, ← h]
  simp only [bowResultF, if_true, hpos, if_false]

/-- C137. The computed scores stay in the ranges of the exact ones: the distance between the
difference of the sizes and the larger size, the similarity between 0 and the smaller size, the
normalised scores in `[0, 1]`; whatever complete matching the solver returns. -/
theorem C137_float_bow_range (R : Rounding) {lsa : List (List ℚ) → List (ℕ × ℕ)}
    (hl : LsaComplete lsa) {a b : List (List Char)} {n : ℤ} (hn : 2 ≤ n)
    (ha : ∀ w ∈ a, Clean w ∧ Small n w) (hb : ∀ w ∈ b, Clean w ∧ Small n w)
    (hM : max a.length b.length ≤ 2 ^ 53) :
    (∃ d s, bowNmdF R lsa (a.map .str) (b.map .str) (.int n) false false = .ok d ∧
      bowNmdF R lsa (a.map .str) (b.map .str) (.int n) true false = .ok s ∧
      |(a.length : ℚ) - b.length| ≤ d ∧ d ≤ max (a.length : ℚ) b.length ∧
      0 ≤ s ∧ s ≤ min (a.length : ℚ) b.length) ∧
    (¬ (a = [] ∧ b = []) →
      ∃ d s, bowNmdF R lsa (a.map .str) (b.map .str) (.int n) false true = .ok d ∧
        bowNmdF R lsa (a.map .str) (b.map .str) (.int n) true true = .ok s ∧
        0 ≤ d ∧ d ≤ 1 ∧ 0 ≤ s ∧ s ≤ 1) := by
  have ca : ∀ w ∈ a, Clean w := fun w hw => (ha w hw).1
  have cb : ∀ w ∈ b, Clean w := fun w hw => (hb w hw).1
  have hr := picked_range (R := R) hl hn ha hb
  have hlen := length_bowPicked (R := R) hl n a b
  have p1 := bow_plain (R := R) hl hn ca cb false
  have p2 := bow_plain (R := R) hl hn ca cb true
  simp only [Bool.false_eq_true, if_false, if_true] at p1 p2
  have b1 := addFold_bounds (R := R) hr (k := max a.length b.length - min a.length b.length)
    (m := max a.length b.length - min a.length b.length) (le_of_eq (abs_len_sub _ _).symm)
    (le_of_eq (abs_len_sub _ _)) (by rw [hlen]; omega)
  have b2 := subFold_bounds (R := R) hr (k := 0) (m := min a.length b.length)
    (x := min (a.length : ℚ) b.length) (by rw [hlen]; push_cast; simp) (by push_cast; rfl)
    (by omega)
  rw [hlen, Nat.sub_add_cancel min_le_max, ← abs_len_sub, Nat.cast_max] at b1
  rw [Nat.cast_min, Nat.cast_zero] at b2
  refine ⟨⟨_, _, p1, p2, b1.1, b1.2, b2.1, b2.2⟩, fun hne => ?_⟩
  have hpos : 0 < max a.length b.length := by
    rw [lt_max_iff, List.length_pos_iff, List.length_pos_iff]; tauto
  have hq : (0 : ℚ) < max (a.length : ℚ) b.length := by exact_mod_cast hpos
  have mm : min (a.length : ℚ) b.length ≤ max (a.length : ℚ) b.length := min_le_max
  have one : ∀ x : ℚ, x ≤ max (a.length : ℚ) b.length →
      R.fl (x / max (a.length : ℚ) b.length) ≤ 1 := by
    intro x hx
    have := R.mono ((div_le_one hq).2 hx)
    rwa [nat_fl_one] at this
  exact ⟨_, _, bow_norm hl hn ca cb hne p1, bow_norm hl hn ca cb hne p2,
    fl_nonneg (div_nonneg ((abs_nonneg _).trans b1.1) hq.le), one _ b1.2,
    fl_nonneg (div_nonneg b2.1 hq.le), one _ (b2.2.trans mm)⟩

/-- Three words against two, computed in binary64; the exact distance is `34 / 15`. -/
example : bowNmdF binary64 bruteLsa [.str "ab".toList, .str "cd".toList, .str "a".toList]
      [.str "ax".toList, .str "cx".toList] (.int 2) false false =
        .ok (2552039788843281 / 1125899906842624) ∧
    bowNmdF binary64 bruteLsa [.str "ab".toList, .int 3] [.str "ax".toList] (.int 2) false false =
      .error .typeError ∧
    LsaComplete bruteLsa ∧ Clean "cd".toList ∧ Small 2 "cd".toList := by
  refine ⟨by decide +kernel, by decide +kernel, fun m C h => (bruteLsa_ok m C h).1,
    by unfold Clean; decide, by unfold Small; decide⟩

/-! ### C138: distance zero -/

theorem bowDistF_eq_zero {n : ℤ} (hn : 2 ≤ n) {v w : List Char} (hv : Clean v) (hw : Clean w)
    (gv : HasGram n v) (gw : HasGram n w) (hT : count n.toNat v + count n.toNat w ≤ 8192) :
    bowDistF binary64 n v w = 0 ↔ v = w := by
  have h107 := (C107_nmd_float_zero_iff hv hw hn gv gw hT).2.1
  rcases nmdF_norm_cases (R := binary64) hv hw hn with h | ⟨_, h⟩
  · rw [← h107, h]
    exact ⟨fun e => by rw [e], fun e => by injection e⟩
  · rw [h]; split_ifs with e <;> simp [e]

/-- C138. In binary64 a computed distance of zero means that the bags hold the same words with the
same multiplicities, whatever complete matching the solver returns (words with an n-gram, at most
4096 n-grams each). -/
theorem C138_float_bow_zero_perm {lsa : List (List ℚ) → List (ℕ × ℕ)} (hl : LsaComplete lsa)
    {a b : List (List Char)} {n : ℤ} (hn : 2 ≤ n)
    (ha : ∀ w ∈ a, Clean w ∧ HasGram n w ∧ Small n w ∧ count n.toNat w ≤ 4096)
    (hb : ∀ w ∈ b, Clean w ∧ HasGram n w ∧ Small n w ∧ count n.toNat w ≤ 4096)
    (hM : max a.length b.length ≤ 2 ^ 53)
    (h : bowNmdF binary64 lsa (a.map .str) (b.map .str) (.int n) false false = .ok 0) :
    a.Perm b := by
  have ca : ∀ w ∈ a, Clean w := fun w hw => (ha w hw).1
  have cb : ∀ w ∈ b, Clean w := fun w hw => (hb w hw).1
  have hr := picked_range (R := binary64) hl hn (fun w hw => ⟨(ha w hw).1, (ha w hw).2.2.1⟩)
    (fun w hw => ⟨(hb w hw).1, (hb w hw).2.2.1⟩)
  rw [bow_plain hl hn ca cb] at h
  simp only [Bool.false_eq_true, if_false, Except.ok.injEq] at h
  have hx : binary64.fl |(a.length : ℚ) - b.length| = |(a.length : ℚ) - b.length| := by
    rw [abs_len_sub]
    exact binary64.nat _ (by omega)
  obtain ⟨l1, l2⟩ := le_addFold (R := binary64) (cs := bowPicked binary64 lsa n a b) (fun c hc => by
    obtain ⟨v, hv, w, hw, rfl⟩ := mem_bowPicked hl hc
    exact ⟨(hr _ hc).1, fl_bowDistF hn (ca v hv) (cb w hw)⟩) (abs_nonneg _) hx
  rw [h] at l1 l2
  have hlen : a.length = b.length := by
    have := le_antisymm l1 (abs_nonneg _)
    rw [abs_eq_zero, sub_eq_zero] at this
    exact_mod_cast this
  have hsum : (bowPicked binary64 lsa n a b).sum = 0 :=
    List.sum_eq_zero fun c hc => le_antisymm (l2 c hc) (hr c hc).1
  have hmt := hl _ _ (distMatrix_rows (bowDistF binary64 n) a b)
  rw [length_distMatrix] at hmt
  obtain ⟨M, hM1, hM2⟩ := assign_of_match (bowDistF binary64 n) hmt
  rw [sum_bowPicked, hM2] at hsum
  have hnn : ∀ x ∈ a, ∀ y ∈ b, 0 ≤ bowDistF binary64 n x y := fun x hx y hy =>
    (bowDistF_range hn (ca x hx) (cb y hy) (ha x hx).2.2.1 (hb y hy).2.2.1).1
  refine perm_of_leastAssign_zero (d := bowDistF binary64 n) hlen hnn
    (fun x hx y hy e => ?_) ⟨⟨M, hM1, hsum.symm⟩, ?_⟩
  · have h1 := (ha x hx).2.2.2
    have h2 := (hb y hy).2.2.2
    exact (bowDistF_eq_zero hn (ca x hx) (cb y hy) (ha x hx).2.1 (hb y hy).2.1 (by omega)).1 e
  · rintro c ⟨M', ⟨m1, m2, _⟩, rfl⟩
    apply Multiset.sum_nonneg
    intro c hc
    obtain ⟨p, hp, rfl⟩ := Multiset.mem_map.1 hc
    exact hnn _ (by simpa using Multiset.mem_of_le m1 (Multiset.mem_map_of_mem Prod.fst hp))
      _ (by simpa using Multiset.mem_of_le m2 (Multiset.mem_map_of_mem Prod.snd hp))

theorem foldl_zeros {f : ℚ → ℚ → ℚ} {cs : List ℚ} (h : ∀ c ∈ cs, c = 0) {x : ℚ} (hx : f x 0 = x) :
    cs.foldl f x = x := by
  induction cs with
  | nil => rfl
  | cons c cs ih =>
    rw [List.foldl_cons, h c List.mem_cons_self, hx]
    exact ih fun c hc => h c (List.mem_cons_of_mem _ hc)

/-- C138. Conversely bags with the same words, in whatever order, get exactly the distance 0, the
similarity `len`, and normalised 0 and 1, if the solver is optimal. -/
theorem C138_float_bow_perm_zero {lsa : List (List ℚ) → List (ℕ × ℕ)} (hl : LsaOk lsa)
    {a b : List (List Char)} {n : ℤ} (hn : 2 ≤ n)
    (ha : ∀ w ∈ a, Clean w ∧ HasGram n w ∧ Small n w ∧ count n.toNat w ≤ 4096)
    (hM : a.length ≤ 2 ^ 53) (h : a.Perm b) :
    bowNmdF binary64 lsa (a.map .str) (b.map .str) (.int n) false false = .ok 0 ∧
    bowNmdF binary64 lsa (a.map .str) (b.map .str) (.int n) true false = .ok a.length ∧
    (a ≠ [] → bowNmdF binary64 lsa (a.map .str) (b.map .str) (.int n) false true = .ok 0 ∧
      bowNmdF binary64 lsa (a.map .str) (b.map .str) (.int n) true true = .ok 1) := by
  have hc := lsaNear_complete (lsaOk_iff_near.1 hl)
  have hb : ∀ w ∈ b, Clean w ∧ HasGram n w ∧ Small n w ∧ count n.toNat w ≤ 4096 :=
    fun w hw => ha w (h.mem_iff.2 hw)
  have ca : ∀ w ∈ a, Clean w := fun w hw => (ha w hw).1
  have cb : ∀ w ∈ b, Clean w := fun w hw => (hb w hw).1
  have hr := picked_range (R := binary64) hc hn (fun w hw => ⟨(ha w hw).1, (ha w hw).2.2.1⟩)
    (fun w hw => ⟨(hb w hw).1, (hb w hw).2.2.1⟩)
  have h0 : IsLeastAssign (bowDistF binary64 n) a a 0 := isLeastAssign_self
    (fun x hx => (bowDistF_eq_zero hn (ca x hx) (ca x hx) (ha x hx).2.1 (ha x hx).2.1
      (by have := (ha x hx).2.2.2; omega)).2 rfl)
    (fun x hx y hy => (bowDistF_range hn (ca x hx) (ca y hy) (ha x hx).2.2.1 (ha y hy).2.2.1).1)
  have hs : (bowPicked binary64 lsa n a b).sum = 0 := by
    rw [sum_bowPicked]
    exact (lsa_least hl (bowDistF binary64 n) a b).unique (h0.perm (List.Perm.refl a) h)
  have hz : ∀ c ∈ bowPicked binary64 lsa n a b, c = 0 := by
    intro c hc
    have := List.single_le_sum (fun c hc => (hr c hc).1) c hc
    exact le_antisymm (this.trans hs.le) (hr c hc).1
  have p1 := bow_plain (R := binary64) hc hn ca cb false
  have p2 := bow_plain (R := binary64) hc hn ca cb true
  have hab : (a.length : ℚ) = b.length := by rw [h.length_eq]
  simp only [Bool.false_eq_true, if_false, if_true, ← hab, sub_self, abs_zero, min_self] at p1 p2
  rw [foldl_zeros hz (by rw [add_zero, fl_zero])] at p1
  rw [foldl_zeros hz (by rw [sub_zero]; exact binary64.nat _ hM)] at p2
  refine ⟨p1, p2, fun hne => ?_⟩
  have hq : (a.length : ℚ) ≠ 0 := by
    rw [Nat.cast_ne_zero]; exact fun e => hne (List.length_eq_zero_iff.1 e)
  have q1 := bow_norm hc hn ca cb (by tauto) p1
  have q2 := bow_norm hc hn ca cb (by tauto) p2
  rw [← hab, max_self] at q1 q2
  rw [zero_div, fl_zero] at q1
  rw [div_self hq, nat_fl_one] at q2
  exact ⟨q1, q2⟩

example : HasGram 2 "aba".toList ∧ Small 2 "aba".toList ∧ count 2 "aba".toList ≤ 4096 ∧
    bowNmdF binary64 bruteLsa [.str "aba".toList, .str "bc".toList]
      [.str "bc".toList, .str "aba".toList] (.int 2) false false = .ok 0 ∧
    bowNmdF binary64 bruteLsa [.str "aba".toList, .str "bc".toList]
      [.str "bc".toList, .str "aba".toList] (.int 2) true true = .ok 1 ∧
    bowNmdF binary64 bruteLsa [.str "aba".toList, .str "aba".toList]
      [.str "bc".toList, .str "aba".toList] (.int 2) false false ≠ .ok 0 := by
  refine ⟨by unfold HasGram; decide, by unfold Small; decide, by decide, ?_, ?_, ?_⟩ <;>
    decide +kernel

/-! ### C139: error -/

/-- C139. Distance and similarity computed by two calls add up to the size of the larger bag up to
the rounding of the two loops, whatever complete matching the solver returns. -/
theorem C139_float_bow_complement (R : Rounding) {lsa : List (List ℚ) → List (ℕ × ℕ)}
    (hl : LsaComplete lsa) {a b : List (List Char)} {n : ℤ} (hn : 2 ≤ n)
    (ha : ∀ w ∈ a, Clean w ∧ Small n w) (hb : ∀ w ∈ b, Clean w ∧ Small n w)
    (hM : max a.length b.length ≤ 2 ^ 53) {d s : ℚ}
    (hd : bowNmdF R lsa (a.map .str) (b.map .str) (.int n) false false = .ok d)
    (hs : bowNmdF R lsa (a.map .str) (b.map .str) (.int n) true false = .ok s) :
    |d + s - max (a.length : ℚ) b.length| ≤
      2 * (min a.length b.length * max a.length b.length : ℕ) * R.u := by
  have ca : ∀ w ∈ a, Clean w := fun w hw => (ha w hw).1
  have cb : ∀ w ∈ b, Clean w := fun w hw => (hb w hw).1
  have hr := picked_range (R := R) hl hn ha hb
  have hlen := length_bowPicked (R := R) hl n a b
  rw [bow_plain hl hn ca cb] at hd hs
  simp only [Bool.false_eq_true, if_false, if_true, Except.ok.injEq] at hd hs
  have e1 := addFold_err (R := R) hr (m := max a.length b.length - min a.length b.length)
    (B := max a.length b.length) (y := |(a.length : ℚ) - b.length|) (abs_nonneg _)
    (le_of_eq (abs_len_sub _ _)) (by rw [hlen]; omega) hM
  have e2 := subFold_err (R := R) hr (B := max a.length b.length)
    (x := min (a.length : ℚ) b.length) (y := min (a.length : ℚ) b.length)
    (by rw [hlen]; push_cast; rfl) (by push_cast; exact min_le_max) hM
  rw [hd, sub_self, abs_zero, zero_add, hlen] at e1
  rw [hs, sub_self, abs_zero, zero_add, hlen] at e2
  have hmm := max_sub_min_eq_abs (a.length : ℚ) b.length
  rw [abs_sub_comm] at hmm
  rw [← hmm] at e1
  rw [Nat.cast_mul]
  rw [abs_le] at e1 e2 ⊢
  constructor <;> linarith [e1.1, e1.2, e2.1, e2.2]

/-- C139. The computed score differs from the exact one by at most the slack `ε` of the solver plus,
for each of the at most `N` pairs, `6 T u` for the computed distance and `M u` for the sum (`N`, `M`
the smaller and the larger size, `T` a bound on the n-grams of a pair of words). The choice the
solver makes on computed costs is covered. Normalised scores: `ε / M + (6 T + M + 1) u`. -/
theorem C139_float_bow_error (R : Rounding) {lsa lsa' : List (List ℚ) → List (ℕ × ℕ)} {ε : ℚ}
    (hε : 0 ≤ ε) (hl : LsaNear ε lsa) (hl' : LsaOk lsa') {a b : List (List Char)} {n : ℤ}
    (hn : 2 ≤ n) (ha : ∀ w ∈ a, Clean w ∧ Small n w) (hb : ∀ w ∈ b, Clean w ∧ Small n w)
    (hM : max a.length b.length ≤ 2 ^ 53) {T : ℕ}
    (hT : ∀ v ∈ a, ∀ w ∈ b, v.length + w.length + 2 ≤ T) (hTu : (T : ℚ) * R.u ≤ 1 / 2)
    (invert : Bool) {x y : ℚ} :
    (bowNmdF R lsa (a.map .str) (b.map .str) (.int n) invert false = .ok x →
      bowNmd lsa' (a.map .str) (b.map .str) (.int n) invert false = .ok y →
      |x - y| ≤ ε + (min a.length b.length : ℕ) * (6 * T + (max a.length b.length : ℕ)) * R.u) ∧
    (bowNmdF R lsa (a.map .str) (b.map .str) (.int n) invert true = .ok x →
      bowNmd lsa' (a.map .str) (b.map .str) (.int n) invert true = .ok y →
      |x - y| ≤ ε / (max a.length b.length : ℕ) +
        (6 * T + (max a.length b.length : ℕ) + 1) * R.u) := by
  have ca : ∀ w ∈ a, Clean w := fun w hw => (ha w hw).1
  have cb : ∀ w ∈ b, Clean w := fun w hw => (hb w hw).1
  have hc := lsaNear_complete hl
  have hr := picked_range (R := R) hc hn ha hb
  have hlen := length_bowPicked (R := R) hc n a b
  have hu := R.u_pos
  have hleast := lsa_least hl' (bowDist n) a b
  generalize matchCost (distMatrix (bowDist n) a b) (lsa' (distMatrix (bowDist n) a b)) = c
    at hleast
  have hnear := sum_bowPicked_near (R := R) hl n (fun v hv w hw => bowDistF_err hn (ca v hv)
    (cb w hw) (ha v hv).2 (hb w hw).2 (hT v hv w hw) hTu) hε hleast
  have e1 := addFold_err (R := R) hr (m := max a.length b.length - min a.length b.length)
    (B := max a.length b.length) (y := |(a.length : ℚ) - b.length|) (abs_nonneg _)
    (le_of_eq (abs_len_sub _ _)) (by rw [hlen]; omega) hM
  have e2 := subFold_err (R := R) hr (B := max a.length b.length)
    (x := min (a.length : ℚ) b.length) (y := min (a.length : ℚ) b.length)
    (by rw [hlen]; push_cast; rfl) (by push_cast; exact min_le_max) hM
  rw [sub_self, abs_zero, zero_add, hlen] at e1 e2
  have plain : ∀ {x y : ℚ},
      bowNmdF R lsa (a.map .str) (b.map .str) (.int n) invert false = .ok x →
      bowNmd lsa' (a.map .str) (b.map .str) (.int n) invert false = .ok y →
      |x - y| ≤ ε + (min a.length b.length : ℕ) * (6 * T + (max a.length b.length : ℕ)) * R.u := by
    intro x y hx hy
    rw [bow_plain hc hn ca cb] at hx
    rw [bowNmd_valid hl' ca cb hn invert false hleast] at hy
    cases invert
    · simp only [bowResult, Bool.false_eq_true, if_false, Except.ok.injEq] at hx hy
      rw [hx] at e1
      subst hy
      rw [abs_le] at e1 hnear ⊢
      constructor <;> nlinarith [e1.1, e1.2, hnear.1, hnear.2]
    · simp only [bowResult, if_true, Bool.false_eq_true, if_false, Except.ok.injEq] at hx hy
      rw [hx] at e2
      subst hy
      rw [abs_le] at e2 hnear ⊢
      constructor <;> nlinarith [e2.1, e2.2, hnear.1, hnear.2]
  refine ⟨plain, fun hx hy => ?_⟩
  by_cases hne : a = [] ∧ b = []
  · obtain ⟨rfl, rfl⟩ := hne
    rw [(C22_bow_normalized hl' (by simp) (by simp) hn).1 rfl rfl invert] at hy
    cases hy
  have hpos : 0 < max a.length b.length := by
    rw [lt_max_iff, List.length_pos_iff, List.length_pos_iff]; tauto
  have hq : (0 : ℚ) < (max a.length b.length : ℕ) := by exact_mod_cast hpos
  obtain ⟨⟨d, s, d1, s1, d2, d3, s2, s3⟩, _⟩ := C137_float_bow_range R hc hn ha hb hM
  have key : ∀ {x₀ : ℚ},
      bowNmdF R lsa (a.map .str) (b.map .str) (.int n) invert false = .ok x₀ →
      0 ≤ x₀ → x₀ ≤ max (a.length : ℚ) b.length →
      |x - y| ≤ ε / (max a.length b.length : ℕ) +
        (6 * T + (max a.length b.length : ℕ) + 1) * R.u := by
    intro x₀ h0 h1 h2
    rw [bow_norm hc hn ca cb hne h0] at hx
    injection hx with hx
    have hy0 := bowNmd_valid hl' ca cb hn invert false hleast
    rw [bowNmd_valid hl' ca cb hn invert true hleast] at hy
    simp only [bowResult, Bool.false_eq_true, if_false, if_true, hpos.ne', Except.ok.injEq] at hy0 hy
    have hp := plain h0 hy0
    rw [← Nat.cast_max] at h2 hx hy
    have := norm_err (R := R) hq h1 h2 hp
    rw [hx, hy] at this
    refine this.trans ?_
    rw [add_div]
    have hN : ((min a.length b.length : ℕ) : ℚ) ≤ (max a.length b.length : ℕ) := by
      exact_mod_cast min_le_max
    have : ((min a.length b.length : ℕ) : ℚ) * (6 * T + (max a.length b.length : ℕ)) * R.u /
        (max a.length b.length : ℕ) ≤ (6 * T + (max a.length b.length : ℕ)) * R.u := by
      rw [div_le_iff₀ hq]
      have hT0 : (0 : ℚ) ≤ (6 * T + (max a.length b.length : ℕ)) * R.u := by positivity
      nlinarith
    linarith
  cases invert
  · exact key d1 ((abs_nonneg _).trans d2) d3
  · exact key s1 s2 (s3.trans min_le_max)

/-- The bound is about `6e-15` for this pair of bags and the difference is not zero. -/
example : (∀ v ∈ ["ab".toList, "cd".toList, "a".toList], ∀ w ∈ ["ax".toList, "cx".toList],
      v.length + w.length + 2 ≤ 6) ∧ ((6 : ℕ) : ℚ) * binary64.u ≤ 1 / 2 ∧ LsaNear 0 bruteLsa ∧
    bowNmdF binary64 bruteLsa [.str "ab".toList, .str "cd".toList, .str "a".toList]
      [.str "ax".toList, .str "cx".toList] (.int 2) false false =
        .ok (2552039788843281 / 1125899906842624) ∧
    bowNmd bruteLsa [.str "ab".toList, .str "cd".toList, .str "a".toList]
      [.str "ax".toList, .str "cx".toList] (.int 2) false false = .ok (34 / 15) := by
  refine ⟨by decide, ?_, lsaOk_iff_near.1 bruteLsa_ok, by decide +kernel, by decide +kernel⟩
  show ((6 : ℕ) : ℚ) * (2 : ℚ)⁻¹ ^ 53 ≤ 1 / 2
  norm_num

/-! ### C140: single words, and the order of the arguments -/

/-- C140. For single words the computed bag distance is exactly the computed normalised word
distance, for any solver that returns a complete matching. -/
theorem C140_float_bow_single (R : Rounding) {lsa : List (List ℚ) → List (ℕ × ℕ)}
    (hl : LsaComplete lsa) {v w : List Char} (hv : Clean v) (hw : Clean w) {n : ℤ} (hn : 2 ≤ n)
    {r : ℚ} (h : nmdF R (.str v) (.str w) (.int n) false true = .ok r) :
    bowNmdF R lsa [.str v] [.str w] (.int n) false false = .ok r := by
  have hd : bowDistF R n v w = r := by unfold bowDistF; rw [h]
  have hlen := length_bowPicked (R := R) hl n [v] [w]
  obtain ⟨c, hc⟩ := List.length_eq_one_iff.1 (by simpa using hlen)
  obtain ⟨v', hv', w', hw', e⟩ := mem_bowPicked (R := R) (c := c) (n := n) (a := [v]) (b := [w]) hl
    (by rw [hc]; exact List.mem_singleton.2 rfl)
  rw [List.mem_singleton] at hv' hw'
  subst hv' hw'
  have := bow_plain (R := R) hl (a := [v']) (b := [w']) hn (by simpa using hv) (by simpa using hw)
    false
  rw [hc, e, hd] at this
  simp only [List.map_cons, List.map_nil, Bool.false_eq_true, if_false, List.foldl_cons,
    List.foldl_nil, List.length_singleton, sub_self, abs_zero, zero_add] at this
  rw [this, ← hd, fl_bowDistF hn hv hw]

example : nmdF binary64 (.str "ab".toList) (.str "ax".toList) (.int 2) false true =
      .ok (6004799503160661 / 9007199254740992) ∧
    bowNmdF binary64 bruteLsa [.str "ab".toList] [.str "ax".toList] (.int 2) false false =
      .ok (6004799503160661 / 9007199254740992) := by
  refine ⟨?_, ?_⟩ <;> decide +kernel

/-- C140. Reordering the words of either bag, exchanging the bags or using another solver changes the
computed score by at most twice the error bound. -/
theorem C140_float_bow_order (R : Rounding) {lsa lsa' : List (List ℚ) → List (ℕ × ℕ)} {ε : ℚ}
    (hε : 0 ≤ ε) (hl : LsaNear ε lsa) (hl' : LsaNear ε lsa') {a a' b b' : List (List Char)} {n : ℤ}
    (hn : 2 ≤ n) (ha : ∀ w ∈ a, Clean w ∧ Small n w) (hb : ∀ w ∈ b, Clean w ∧ Small n w)
    (hM : max a.length b.length ≤ 2 ^ 53) {T : ℕ}
    (hT : ∀ v ∈ a, ∀ w ∈ b, v.length + w.length + 2 ≤ T) (hTu : (T : ℚ) * R.u ≤ 1 / 2)
    (pa : a.Perm a') (pb : b.Perm b') (invert : Bool) {x y z : ℚ}
    (hx : bowNmdF R lsa (a.map .str) (b.map .str) (.int n) invert false = .ok x)
    (hy : bowNmdF R lsa' (a'.map .str) (b'.map .str) (.int n) invert false = .ok y)
    (hz : bowNmdF R lsa' (b'.map .str) (a'.map .str) (.int n) invert false = .ok z) :
    |x - y| ≤ 2 * (ε + (min a.length b.length : ℕ) * (6 * T + (max a.length b.length : ℕ)) * R.u) ∧
    |x - z| ≤ 2 * (ε + (min a.length b.length : ℕ) * (6 * T + (max a.length b.length : ℕ)) * R.u) := by
  have ca : ∀ w ∈ a, Clean w := fun w hw => (ha w hw).1
  have cb : ∀ w ∈ b, Clean w := fun w hw => (hb w hw).1
  have ha' : ∀ w ∈ a', Clean w ∧ Small n w := fun w hw => ha w (pa.mem_iff.2 hw)
  have hb' : ∀ w ∈ b', Clean w ∧ Small n w := fun w hw => hb w (pb.mem_iff.2 hw)
  have hT' : ∀ v ∈ a', ∀ w ∈ b', v.length + w.length + 2 ≤ T :=
    fun v hv w hw => hT v (pa.mem_iff.2 hv) w (pb.mem_iff.2 hw)
  have la := pa.length_eq
  have lb := pb.length_eq
  obtain ⟨o1, o2⟩ := C21_bow_order bruteLsa_ok bruteLsa_ok ca cb hn invert false pa pb
  have hex := bowNmd_valid bruteLsa_ok ca cb hn invert false (lsa_least bruteLsa_ok (bowDist n) a b)
  simp only [bowResult, Bool.false_eq_true, if_false] at hex
  have e1 := (C139_float_bow_error R hε hl bruteLsa_ok hn ha hb hM hT hTu invert).1 hx hex
  have e2 := (C139_float_bow_error R hε hl' bruteLsa_ok hn ha' hb' (by rw [← la, ← lb]; exact hM)
    hT' hTu invert).1 hy (o1.symm.trans hex)
  have e3 := (C139_float_bow_error R hε hl' bruteLsa_ok hn hb' ha'
    (by rw [← la, ← lb, max_comm]; exact hM) (fun v hv w hw => by
      have := hT' w hw v hv
      omega) hTu invert).1 hz (o2.symm.trans hex)
  rw [← la, ← lb] at e2 e3
  rw [min_comm b.length a.length, max_comm b.length a.length] at e3
  rw [abs_le] at e1 e2 e3
  constructor <;> rw [abs_le] <;> constructor <;> linarith [e1.1, e1.2, e2.1, e2.2, e3.1, e3.2]

/-- C140. The bound cannot be replaced by equality: in binary64 listing the words of one bag in
another order changes the last bit of the distance, with the same optimal solver. -/
theorem C140_float_bow_order_matters :
    ∃ lsa, LsaOk lsa ∧ ∃ a a' b : List (List Char), a.Perm a' ∧
      ∃ x y, bowNmdF binary64 lsa (a.map .str) (b.map .str) (.int 2) false false = .ok x ∧
        bowNmdF binary64 lsa (a'.map .str) (b.map .str) (.int 2) false false = .ok y ∧ x ≠ y := by
  refine ⟨bruteLsa, bruteLsa_ok, ["ab".toList, "ab".toList, "aba".toList],
    ["aba".toList, "ab".toList, "ab".toList], ["ax".toList, "ax".toList, "abc".toList], ?_,
    8256599316845909 / 4503599627370496, 2064149829211477 / 1125899906842624, ?_, ?_, ?_⟩
  · decide
  · decide +kernel
  · decide +kernel
  · norm_num

end Fp
end Verif
