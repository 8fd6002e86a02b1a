import Verif.Bow.Lemmas

/-!
# Properties C20–C22, C50, C51: `bow_ngram_movers_distance`

`bowNmd lsa a b n invert normalize` models the call; `lsa` is any assignment solver satisfying
scipy's documented contract (`LsaOk`, met by the exhaustive solver `bruteLsa`, see
`bruteLsa_ok`).
-/

namespace Verif

open BowSpec GramSpec

/-- C20. The result is the difference of the sizes plus the least total word distance over all
one-to-one assignments of the smaller bag, whatever optimal solver is used. The word distance is
the normalised n-gram mover's distance, or 0/1 for equal/different words where that divides by
zero. -/
theorem C20_bow_optimal {n : ℤ} (hn : 2 ≤ n) :
    ∃ d : List Char → List Char → ℚ,
      (∀ v w, Clean v → Clean w →
        nmd (.str v) (.str w) (.int n) false true = .ok (d v w) ∨
        (nmd (.str v) (.str w) (.int n) false true = .error .zeroDivisionError ∧
          d v w = if v = w then 0 else 1)) ∧
      ∀ (lsa : List (List ℚ) → List (ℕ × ℕ)), LsaOk lsa →
      ∀ a b : List (List Char), (∀ w ∈ a, Clean w) → (∀ w ∈ b, Clean w) →
        ∃ c, IsLeastAssign d a b c ∧
          bowNmd lsa (a.map .str) (b.map .str) (.int n) false false =
            .ok (|(a.length : ℚ) - b.length| + c) := by
  refine ⟨bowDist n, fun v w hv hw => nmd_norm_cases hv hw hn, fun lsa hl a b ha hb => ?_⟩
  have h := lsa_least hl (bowDist n) a b
  exact ⟨_, h, bowNmd_valid hl ha hb hn false false h⟩

/-- Two words against two words in the other order, and a bag with a word left over. -/
example : LsaOk bruteLsa ∧
    bowNmd bruteLsa [.str "ab".toList, .str "cd".toList] [.str "cd".toList, .str "ax".toList]
      (.int 2) false false = .ok (2 / 3) ∧
    bowNmd bruteLsa [.str "ab".toList] [.str "cd".toList, .str "ab".toList]
      (.int 2) false false = .ok 1 := by
  refine ⟨bruteLsa_ok, ?_, ?_⟩ <;> decide +kernel

/-- The fallback for words without n-grams: equal words are at distance 0, others at 1. -/
example : bowNmd bruteLsa [.str "a".toList] [.str "a".toList] (.int 4) false false = .ok 0 ∧
    bowNmd bruteLsa [.str "a".toList] [.str "b".toList] (.int 4) false false = .ok 1 ∧
    nmd (.str "a".toList) (.str "a".toList) (.int 4) false true = .error .zeroDivisionError := by
  refine ⟨?_, ?_, ?_⟩ <;> decide +kernel

theorem bowDist_comm (n : ℤ) (v w : List Char) : bowDist n v w = bowDist n w v := by
  unfold bowDist
  rw [(C14_symm (.int n) false true).1 v w]
  simp only [eq_comm (a := v)]

/-- C21. Neither the order of the words in a bag, nor which bag comes first, nor the choice of
optimal solver changes the result (for all flags). -/
theorem C21_bow_order {lsa lsa' : List (List ℚ) → List (ℕ × ℕ)} (hl : LsaOk lsa)
    (hl' : LsaOk lsa') {a b a' b' : List (List Char)} (ha : ∀ w ∈ a, Clean w)
    (hb : ∀ w ∈ b, Clean w) {n : ℤ} (hn : 2 ≤ n) (invert normalize : Bool) (pa : a.Perm a')
    (pb : b.Perm b') :
    bowNmd lsa (a.map .str) (b.map .str) (.int n) invert normalize =
      bowNmd lsa' (a'.map .str) (b'.map .str) (.int n) invert normalize ∧
    bowNmd lsa (a.map .str) (b.map .str) (.int n) invert normalize =
      bowNmd lsa' (b'.map .str) (a'.map .str) (.int n) invert normalize := by
  have h := lsa_least hl (bowDist n) a b
  have ha' : ∀ w ∈ a', Clean w := fun w hw => ha w (pa.symm.subset hw)
  have hb' : ∀ w ∈ b', Clean w := fun w hw => hb w (pb.symm.subset hw)
  have h2 := h.perm pa pb
  rw [bowNmd_valid hl ha hb hn invert normalize h, bowNmd_valid hl' ha' hb' hn invert normalize h2,
    bowNmd_valid hl' hb' ha' hn invert normalize (h2.swap (bowDist_comm n)), pa.length_eq,
    pb.length_eq]
  refine ⟨rfl, ?_⟩
  unfold bowResult
  rw [min_comm, abs_sub_comm, max_comm a'.length, max_comm (a'.length : ℚ)]

example : ["b".toList, "a".toList].Perm ["a".toList, "b".toList] ∧
    bowNmd bruteLsa ([ "b".toList, "a".toList].map .str) (["ab".toList].map .str) (.int 2) true false =
      bowNmd bruteLsa (["ab".toList].map .str) (["a".toList, "b".toList].map .str) (.int 2) true false ∧
    bowNmd bruteLsa ([ "b".toList, "a".toList].map .str) (["ab".toList].map .str) (.int 2) true false
      = .ok (2 / 5) := by
  refine ⟨by decide, ?_, ?_⟩ <;> decide +kernel

theorem bowDist_range {n : ℤ} (hn : 2 ≤ n) {v w : List Char} (hv : Clean v) (hw : Clean w) :
    0 ≤ bowDist n v w ∧ bowDist n v w ≤ 1 := by
  rcases nmd_norm_cases hv hw hn with h | ⟨_, h⟩
  · exact (C17_range hv hw hn false).1 h
  · rw [h]; split_ifs <;> norm_num

theorem bowDist_eq_zero {n : ℤ} (hn : 2 ≤ n) {v w : List Char} (hv : Clean v) (hw : Clean w)
    (gv : HasGram n v) (gw : HasGram n w) : bowDist n v w = 0 ↔ v = w := by
  have h13 := (C13_zero_iff_eq hv hw hn gv gw).2.1
  rcases nmd_norm_cases hv hw hn with h | ⟨_, h⟩
  · rw [← h13, h]
    exact ⟨fun e => by rw [e], fun e => by injection e⟩
  · rw [h]; split_ifs with e <;> simp [e]

/-- C21. The distance between two bags of words is zero exactly when they contain the same words
with the same multiplicities (words long enough to have an n-gram). -/
theorem C21_bow_zero_iff {lsa : List (List ℚ) → List (ℕ × ℕ)} (hl : LsaOk lsa)
    {a b : List (List Char)} {n : ℤ} (hn : 2 ≤ n) (ha : ∀ w ∈ a, Clean w ∧ HasGram n w)
    (hb : ∀ w ∈ b, Clean w ∧ HasGram n w) :
    bowNmd lsa (a.map .str) (b.map .str) (.int n) false false = .ok 0 ↔ a.Perm b := by
  have ca : ∀ w ∈ a, Clean w := fun w hw => (ha w hw).1
  have cb : ∀ w ∈ b, Clean w := fun w hw => (hb w hw).1
  constructor
  · intro h
    have hc := lsa_least hl (bowDist n) a b
    rw [bowNmd_valid hl ca cb hn false false hc] at h
    simp only [bowResult, Bool.false_eq_true, if_false, Except.ok.injEq] at h
    have hr := hc.range (fun x hx y hy => bowDist_range hn (ca x hx) (cb y hy))
    have h1 := abs_nonneg ((a.length : ℚ) - b.length)
    have h2 : |(a.length : ℚ) - b.length| = 0 := by linarith
    have h3 : matchCost (distMatrix (bowDist n) a b) (lsa (distMatrix (bowDist n) a b)) = 0 := by
      linarith
    rw [abs_eq_zero, sub_eq_zero] at h2
    rw [h3] at hc
    exact perm_of_leastAssign_zero (by exact_mod_cast h2)
      (fun x hx y hy => (bowDist_range hn (ca x hx) (cb y hy)).1)
      (fun x hx y hy e => (bowDist_eq_zero hn (ca x hx) (cb y hy) (ha x hx).2 (hb y hy).2).1 e) hc
  · intro h
    have h0 : IsLeastAssign (bowDist n) a a 0 := isLeastAssign_self
      (fun x hx => (bowDist_eq_zero hn (ca x hx) (ca x hx) (ha x hx).2 (ha x hx).2).2 rfl)
      (fun x hx y hy => (bowDist_range hn (ca x hx) (ca y hy)).1)
    rw [bowNmd_valid hl ca cb hn false false (h0.perm (List.Perm.refl a) h), h.length_eq]
    simp [bowResult]

example : HasGram 2 "ab".toList ∧ HasGram 2 "ba".toList ∧
    bowNmd bruteLsa [.str "ab".toList, .str "ba".toList] [.str "ba".toList, .str "ab".toList]
      (.int 2) false false = .ok 0 ∧
    bowNmd bruteLsa [.str "ab".toList, .str "ab".toList] [.str "ba".toList, .str "ab".toList]
      (.int 2) false false ≠ .ok 0 := by
  refine ⟨by unfold HasGram; decide, by unfold HasGram; decide, ?_, ?_⟩ <;> decide +kernel

/-- The hypothesis on word lengths is needed: a one-letter word is at distance 1 from itself when
`n = 5`. -/
example : bowNmd bruteLsa [.str "a".toList] [.str "a".toList] (.int 5) false false = .ok 1 := by
  decide +kernel

/-- C22. Distance and similarity add up to the size of the larger bag and lie between 0 and it;
the similarity is at most, and the distance differs from the size difference by at most, the
size of the smaller bag. -/
theorem C22_bow_complement {lsa : List (List ℚ) → List (ℕ × ℕ)} (hl : LsaOk lsa)
    {a b : List (List Char)} (ha : ∀ w ∈ a, Clean w) (hb : ∀ w ∈ b, Clean w) {n : ℤ}
    (hn : 2 ≤ n) :
    ∃ d s, bowNmd lsa (a.map .str) (b.map .str) (.int n) false false = .ok d ∧
      bowNmd lsa (a.map .str) (b.map .str) (.int n) true false = .ok s ∧
      d + s = max (a.length : ℚ) b.length ∧ |(a.length : ℚ) - b.length| ≤ d ∧ 0 ≤ s ∧
      s ≤ min (a.length : ℚ) b.length := by
  have hc := lsa_least hl (bowDist n) a b
  have hr := hc.range (fun x hx y hy => bowDist_range hn (ha x hx) (hb y hy))
  refine ⟨_, _, bowNmd_valid hl ha hb hn false false hc, bowNmd_valid hl ha hb hn true false hc,
    ?_, ?_, ?_, ?_⟩
  · simp only [Bool.false_eq_true, if_false, if_true]
    have := max_sub_min_eq_abs (a.length : ℚ) b.length
    rw [abs_sub_comm] at this
    linarith
  · simp only [Bool.false_eq_true, if_false]; linarith
  · simp only [if_true]; linarith
  · simp only [if_true]; linarith

/-- C22. Normalised: the call fails exactly for two empty bags (division by zero); otherwise both
scores are defined, lie in `[0, 1]` and add up to 1. -/
theorem C22_bow_normalized {lsa : List (List ℚ) → List (ℕ × ℕ)} (hl : LsaOk lsa)
    {a b : List (List Char)} (ha : ∀ w ∈ a, Clean w) (hb : ∀ w ∈ b, Clean w) {n : ℤ}
    (hn : 2 ≤ n) :
    (a = [] → b = [] → ∀ invert, bowNmd lsa (a.map .str) (b.map .str) (.int n) invert true =
      .error .zeroDivisionError) ∧
    (¬ (a = [] ∧ b = []) →
      ∃ d s, bowNmd lsa (a.map .str) (b.map .str) (.int n) false true = .ok d ∧
        bowNmd lsa (a.map .str) (b.map .str) (.int n) true true = .ok s ∧
        d + s = 1 ∧ 0 ≤ d ∧ d ≤ 1 ∧ 0 ≤ s ∧ s ≤ 1) := by
  have hc := lsa_least hl (bowDist n) a b
  constructor
  · rintro rfl rfl invert
    rw [bowNmd_valid hl ha hb hn invert true hc]
    simp [bowResult]
  · intro hne
    have hpos : 0 < max a.length b.length := by
      rw [lt_max_iff, List.length_pos_iff, List.length_pos_iff]
      tauto
    have hq : (0 : ℚ) < max (a.length : ℚ) b.length := by exact_mod_cast hpos
    obtain ⟨d, s, h1, h2, h3, h4, h5, h6⟩ := C22_bow_complement hl ha hb hn
    have h4' := (abs_nonneg _).trans h4
    rw [bowNmd_valid hl ha hb hn false false hc] at h1
    rw [bowNmd_valid hl ha hb hn true false hc] at h2
    refine ⟨d / max (a.length : ℚ) b.length, s / max (a.length : ℚ) b.length, ?_, ?_, ?_, ?_, ?_, ?_, ?_⟩
    · rw [bowNmd_valid hl ha hb hn false true hc]
      simp only [bowResult, Bool.false_eq_true, if_false, Except.ok.injEq] at h1
      simp [bowResult, hpos.ne', h1]
    · rw [bowNmd_valid hl ha hb hn true true hc]
      simp only [bowResult, Bool.false_eq_true, if_false, if_true, Except.ok.injEq] at h2
      simp only [bowResult, hpos.ne', if_true, if_false, h2]
    · rw [← add_div, h3, div_self hq.ne']
    · exact div_nonneg h4' hq.le
    · rw [div_le_one hq]; linarith
    · exact div_nonneg h5 hq.le
    · rw [div_le_one hq]; linarith

example : bowNmd bruteLsa [] [] (.int 2) false true = .error .zeroDivisionError ∧
    bowNmd bruteLsa [.str "ab".toList, .str "cd".toList] [.str "ax".toList] (.int 2) false true
      = .ok (5 / 6) ∧
    bowNmd bruteLsa [.str "ab".toList, .str "cd".toList] [.str "ax".toList] (.int 2) true true
      = .ok (1 / 6) := by
  refine ⟨?_, ?_, ?_⟩ <;> decide +kernel

/-- C51. For single words the bag distance is the normalised word distance. -/
theorem C51_bow_single {lsa : List (List ℚ) → List (ℕ × ℕ)} (hl : LsaOk lsa) {v w : List Char}
    (hv : Clean v) (hw : Clean w) {n : ℤ} (hn : 2 ≤ n) {r : ℚ}
    (h : nmd (.str v) (.str w) (.int n) false true = .ok r) :
    bowNmd lsa [.str v] [.str w] (.int n) false false = .ok r := by
  have hc : IsLeastAssign (bowDist n) [v] [w] r := by
    have hd : bowDist n v w = r := by unfold bowDist; rw [h]
    have hc := lsa_least hl (bowDist n) [v] [w]
    obtain ⟨⟨M, ⟨h1, h2, h3⟩, e⟩, _⟩ := hc
    obtain ⟨p, rfl⟩ := Multiset.card_eq_one.1 (by simpa using h3)
    simp only [Multiset.map_singleton, Multiset.singleton_le, Multiset.mem_coe,
      List.mem_singleton] at h1 h2
    have : assignCost (bowDist n) {p} = r := by simp [assignCost, h1, h2, hd]
    rw [← this, ← e]
    exact lsa_least hl (bowDist n) [v] [w]
  have := bowNmd_valid hl (a := [v]) (b := [w]) (by simpa using hv) (by simpa using hw) hn false
    false hc
  simpa [bowResult] using this

example : nmd (.str "ab".toList) (.str "ax".toList) (.int 2) false true = .ok (2 / 3) ∧
    bowNmd bruteLsa [.str "ab".toList] [.str "ax".toList] (.int 2) false false = .ok (2 / 3) := by
  refine ⟨?_, ?_⟩ <;> decide +kernel

/-- C51. The bag distance does not obey the triangle inequality, whatever optimal solver is
used. -/
theorem C51_bow_not_metric {lsa : List (List ℚ) → List (ℕ × ℕ)} (hl : LsaOk lsa) :
    ∃ a b c : List (List Char), ∃ x y z : ℚ,
      bowNmd lsa (a.map .str) (b.map .str) (.int 2) false false = .ok x ∧
      bowNmd lsa (b.map .str) (c.map .str) (.int 2) false false = .ok y ∧
      bowNmd lsa (a.map .str) (c.map .str) (.int 2) false false = .ok z ∧ x + y < z := by
  obtain ⟨a, b, c, ha, hb, hc, x, y, z, h1, h2, h3, h4⟩ := C19_normalized_not_metric
  exact ⟨[a], [b], [c], x, y, z, C51_bow_single hl ha hb (by norm_num) h1,
    C51_bow_single hl hb hc (by norm_num) h2, C51_bow_single hl ha hc (by norm_num) h3, h4⟩

example : bowNmd bruteLsa [.str "aaaa".toList] [.str "bbbb".toList] (.int 2) false false = .ok 1 := by
  decide +kernel

/-- A usable word argument: a `str` without marker characters. -/
def ValidWord (v : PyVal) : Prop := ∃ s, v = .str s ∧ Clean s

/-- A usable `n`: an integer at least 2. -/
def ValidN (k : PyVal) : Prop := ∃ n, k = .int n ∧ 2 ≤ n

theorem bowCell_ok_iff (k v w : PyVal) :
    (∃ r, bowCell k v w = .ok r) ↔ ValidWord v ∧ ValidWord w ∧ ValidN k := by
  constructor
  · rintro ⟨r, h⟩
    have hz : ∀ e, e ≠ PyErr.zeroDivisionError → nmd v w k false true ≠ .error e := by
      intro e he h'
      unfold bowCell at h
      rw [h'] at h
      cases e <;> simp_all
    obtain ⟨t1, t2, t3, t4, t5, t6, _⟩ := C10_validation v w k false true
    cases v with
    | int i => exact absurd (t1 (by simp)) (hz _ (by simp))
    | other => exact absurd (t1 (by simp)) (hz _ (by simp))
    | str a =>
      by_cases ha : Clean a
      swap
      · exact absurd (t2 a rfl ha) (hz _ (by simp))
      cases w with
      | int i => exact absurd (t3 a rfl ha (by simp)) (hz _ (by simp))
      | other => exact absurd (t3 a rfl ha (by simp)) (hz _ (by simp))
      | str b =>
        by_cases hb : Clean b
        swap
        · exact absurd (t4 a b rfl ha rfl hb) (hz _ (by simp))
        cases k with
        | str s => exact absurd (t5 a b rfl ha rfl hb (by simp)) (hz _ (by simp))
        | other => exact absurd (t5 a b rfl ha rfl hb (by simp)) (hz _ (by simp))
        | int n =>
          by_cases hn : 2 ≤ n
          · exact ⟨⟨a, rfl, ha⟩, ⟨b, rfl, hb⟩, ⟨n, rfl, hn⟩⟩
          · exact absurd (t6 a b n rfl ha rfl hb rfl (not_le.1 hn)) (hz _ (by simp))
  · rintro ⟨⟨a, rfl, ha⟩, ⟨b, rfl, hb⟩, n, rfl, hn⟩
    exact ⟨_, bowCell_valid ha hb hn⟩

theorem mapM_ok_iff {β γ : Type} {f : β → Except PyErr γ} {l : List β} :
    (∃ r, l.mapM f = .ok r) ↔ ∀ x ∈ l, ∃ r, f x = .ok r := by
  induction l with
  | nil => simp [pure, Except.pure]
  | cons x l ih =>
    rw [List.mapM_cons]
    simp only [List.forall_mem_cons, ← ih]
    cases f x with
    | error e => simp [bind, Except.bind]
    | ok r =>
      cases l.mapM f with
      | error e => simp [bind, Except.bind]
      | ok rs => simp [bind, Except.bind, pure, Except.pure]

theorem bowCosts_ok_iff (k : PyVal) (a b : List PyVal) :
    (∃ r, bowCosts k a b = .ok r) ↔
      ∀ v ∈ a, ∀ w ∈ b, ValidWord v ∧ ValidWord w ∧ ValidN k := by
  unfold bowCosts
  simp only [mapM_ok_iff, bowCell_ok_iff]

theorem exists_strs {a : List PyVal} (h : ∀ v ∈ a, ValidWord v) :
    ∃ s : List (List Char), a = s.map .str ∧ ∀ w ∈ s, Clean w := by
  induction a with
  | nil => exact ⟨[], rfl, by simp⟩
  | cons v a ih =>
    obtain ⟨s, rfl, hs⟩ := h v List.mem_cons_self
    obtain ⟨t, rfl, ht⟩ := ih (fun w hw => h w (List.mem_cons_of_mem _ hw))
    exact ⟨s :: t, rfl, by simpa using ⟨hs, ht⟩⟩

/-- C50. An empty bag is compared without looking at the other bag or at `n`: the distance is the
size of the other bag and the similarity is 0. -/
theorem C50_bow_empty {lsa : List (List ℚ) → List (ℕ × ℕ)} (hl : LsaOk lsa) (b : List PyVal)
    (k : PyVal) :
    bowNmd lsa [] b k false false = .ok b.length ∧ bowNmd lsa [] b k true false = .ok 0 ∧
    bowNmd lsa b [] k false false = .ok b.length ∧ bowNmd lsa b [] k true false = .ok 0 := by
  have e1 : ∀ b : List PyVal, bowCosts k b [] = .ok (b.map fun _ => []) :=
    fun b => mapM_ok (fun x _ => rfl)
  have e2 : (if b.map (fun _ => ([] : List ℚ)) = [] then [] else lsa (b.map fun _ => [])) = [] := by
    split_ifs with h
    · rfl
    · obtain ⟨⟨_, _, _, h4⟩, _⟩ := hl (b.map fun _ => []) 0 (by simp)
      simpa using h4
  refine ⟨?_, ?_, ?_, ?_⟩
  · simp [bowNmd, bowCosts, bind, Except.bind, pure, Except.pure]
  · simp [bowNmd, bowCosts, bind, Except.bind, pure, Except.pure]
  · simp only [bowNmd, e1, bind, Except.bind, e2]
    simp [pure, Except.pure]
  · simp only [bowNmd, e1, bind, Except.bind, e2]
    simp [pure, Except.pure]

example : bowNmd bruteLsa [] [.other, .int 7] .other false false = .ok 2 ∧
    bowNmd bruteLsa [.int 7] [] (.int 0) true false = .ok 0 := by
  refine ⟨?_, ?_⟩ <;> decide +kernel

/-- C50. Exactly when the call raises: both bags are non-empty and some word of either bag, or
`n`, is unusable; or both bags are empty and a normalised score is asked for. -/
theorem C50_bow_raises_iff {lsa : List (List ℚ) → List (ℕ × ℕ)} (hl : LsaOk lsa)
    (a b : List PyVal) (k : PyVal) (invert normalize : Bool) :
    (∃ e, bowNmd lsa a b k invert normalize = .error e) ↔
      (a ≠ [] ∧ b ≠ [] ∧ ¬ ((∀ v ∈ a, ValidWord v) ∧ (∀ w ∈ b, ValidWord w) ∧ ValidN k)) ∨
      (a = [] ∧ b = [] ∧ normalize = true) := by
  have hnorm : ∀ {r : ℚ}, (a ≠ [] ∨ b ≠ []) → bowNmd lsa a b k invert false = .ok r →
      ∃ r', bowNmd lsa a b k invert normalize = .ok r' := by
    intro r hne h
    have hpos : max a.length b.length ≠ 0 := by
      have : 0 < max a.length b.length := by
        rw [lt_max_iff, List.length_pos_iff, List.length_pos_iff]; exact hne
      omega
    cases normalize
    · exact ⟨r, h⟩
    · unfold bowNmd at h ⊢
      simp only [bind, Except.bind, Bool.false_eq_true, if_false, if_true, pure, Except.pure,
        hpos] at h ⊢
      cases hc : bowCosts k a b with
      | error e => rw [hc] at h; simp at h
      | ok costs =>
        rw [hc] at h
        cases invert
        · simp only [Bool.false_eq_true, if_false] at h ⊢
          split at h
          · simp at h
          · exact ⟨_, rfl⟩
        · simp only [if_true] at h ⊢
          split at h
          · simp at h
          · exact ⟨_, rfl⟩
  by_cases ha : a = []
  · subst ha
    by_cases hb : b = []
    · subst hb
      cases normalize
      · have := C50_bow_empty hl [] k
        cases invert
        · simp [this.1]
        · simp [this.2.1]
      · simp [bowNmd, bowCosts, bind, Except.bind, pure, Except.pure, throw, throwThe,
          MonadExceptOf.throw]
    · have h := C50_bow_empty hl b k
      obtain ⟨r', h'⟩ : ∃ r', bowNmd lsa [] b k invert normalize = .ok r' := by
        cases invert
        · exact hnorm (Or.inr hb) h.1
        · exact hnorm (Or.inr hb) h.2.1
      simp [h', hb]
  · by_cases hb : b = []
    · subst hb
      have h := C50_bow_empty hl a k
      obtain ⟨r', h'⟩ : ∃ r', bowNmd lsa a [] k invert normalize = .ok r' := by
        cases invert
        · exact hnorm (Or.inl ha) h.2.2.1
        · exact hnorm (Or.inl ha) h.2.2.2
      simp [h', ha]
    · simp only [ha, hb, ne_eq, not_false_eq_true, true_and, false_and, or_false]
      constructor
      · rintro ⟨e, h⟩ ⟨va, vb, n, rfl, hn⟩
        obtain ⟨s, rfl, hs⟩ := exists_strs va
        obtain ⟨t, rfl, ht⟩ := exists_strs vb
        have hc := bowNmd_valid hl hs ht hn invert false (lsa_least hl (bowDist n) s t)
        obtain ⟨r', h'⟩ := hnorm (Or.inl ha) hc
        rw [h'] at h
        simp at h
      · intro h
        cases hc : bowCosts k a b with
        | error e => exact ⟨e, by simp [bowNmd, hc, bind, Except.bind]⟩
        | ok r =>
          have := (bowCosts_ok_iff k a b).1 ⟨r, hc⟩
          exfalso
          obtain ⟨x, hx⟩ := List.exists_mem_of_ne_nil _ ha
          obtain ⟨y, hy⟩ := List.exists_mem_of_ne_nil _ hb
          exact h ⟨fun v hv => (this v hv y hy).1, fun w hw => (this x hx w hw).2.1,
            (this x hx y hy).2.2⟩

example : bowNmd bruteLsa [.str "a".toList] [.int 7] (.int 2) false false = .error .typeError ∧
    bowNmd bruteLsa [.str "a".toList] [.str ['\x02']] (.int 2) false false = .error .valueError ∧
    bowNmd bruteLsa [.str "a".toList] [.str "b".toList] (.int 1) false false = .error .valueError := by
  refine ⟨?_, ?_, ?_⟩ <;> decide +kernel

end Verif
