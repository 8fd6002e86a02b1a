import Verif.Index.Props
import Verif.Index.V3Props

/-!
# C32, C70: the arguments of the constructors of word lists

Most theorems about `ApproxWordListV6` speak of the sizes and the filter size kept in the object. Here they
are the arguments `n`, `case_sensitive` and `filter_n` of the constructor (nmd/nmd_index.py:416-451), and of
`ApproxWordListV3` (nmd/nmd_index.py:41-59).
-/

namespace Verif

open GramSpec IndexSpec

variable {cf : List Char → List Char}

/-- The sizes meant by an argument `n`. -/
def NArg.Sizes (n : NArg) (m : ℤ) : Prop :=
  match n with
  | .int k => m = k
  | .iter ns => m ∈ ns
  | .other => False

/-- C32: the constructor accepts positive sizes only. -/
theorem C32_constructor (n : NArg) (cs : Bool) (fn : ℤ) :
    ((∃ st, WL.new n cs fn = .ok st) ↔ n ≠ .other ∧ ∀ m, n.Sizes m → 0 < m) ∧
    (WL.new n cs fn = .error .typeError ↔ n = .other) ∧
    (WL.new n cs fn = .error .assertionError ↔ ∃ m, n.Sizes m ∧ m ≤ 0) := by
  unfold WL.new
  cases n with
  | int k =>
    by_cases h : k > 0
    · simp [mkNList, NArg.Sizes, h, bind, Except.bind, pure, Except.pure]
    · simp [mkNList, NArg.Sizes, h, bind, Except.bind]
      omega
  | iter ns =>
    have e : ((ns.dedup.insertionSort (· ≤ ·)).all fun m => decide (m > 0)) = true ↔
        ∀ m ∈ ns, 0 < m := by
      rw [List.all_eq_true]
      simp only [(List.perm_insertionSort _ _).mem_iff, List.mem_dedup, decide_eq_true_eq, gt_iff_lt]
    by_cases h : ∀ m ∈ ns, 0 < m
    · simp only [mkNList, NArg.Sizes, if_pos (e.2 h), bind, Except.bind, pure, Except.pure]
      refine ⟨⟨fun _ => ⟨by simp, h⟩, fun _ => ⟨_, rfl⟩⟩, by simp, ?_⟩
      constructor
      · intro h'; cases h'
      · rintro ⟨m, h1, h2⟩
        have := h m h1
        omega
    · simp only [mkNList, NArg.Sizes, if_neg (mt e.1 h), bind, Except.bind]
      refine ⟨⟨by simp, fun h' => absurd h'.2 h⟩, by simp, ?_⟩
      simp only [true_iff]
      by_contra hc
      exact h fun m hm => by
        by_contra h0
        exact hc ⟨m, hm, by omega⟩
  | other => simp [mkNList, NArg.Sizes, bind, Except.bind]

/-- C32: after any calls the list still works with the sizes, the filter size and the case sensitivity it was
made with; sizes are used once each, in ascending order. -/
theorem C32_arguments (hcf : ∀ w, cf (cf w) = cf w) {n : NArg} {cs : Bool} {fn : ℤ} {st₀ : WL}
    (h0 : WL.new n cs fn = .ok st₀) (ops : List WLOp) :
    (st₀.run cf ops).filterN = fn ∧
    (st₀.run cf ops).nList.Pairwise (· < ·) ∧
    (∀ m, m ∈ (st₀.run cf ops).nList ↔ n.Sizes m) ∧
    ∀ w, (st₀.run cf ops).fold cf w = if cs then w else cf w := by
  obtain ⟨c1, c2, c3⟩ := config_run hcf (WLInv.new h0) ops
  have key : st₀.filterN = fn ∧ st₀.nList.Pairwise (· < ·) ∧ (∀ m, m ∈ st₀.nList ↔ n.Sizes m) ∧
      st₀.caseInsensitive = !cs := by
    unfold WL.new at h0
    cases hm : mkNList n with
    | error e => rw [hm] at h0; cases h0
    | ok l =>
      rw [hm] at h0
      injection h0 with h0
      subst h0
      refine ⟨rfl, ?_, ?_, rfl⟩
      · cases n with
        | int k =>
          simp only [mkNList] at hm
          split at hm
          · injection hm with hm; subst hm; simp
          · cases hm
        | iter ns =>
          simp only [mkNList] at hm
          split at hm
          · injection hm with hm; subst hm
            have h1 : (ns.dedup.insertionSort (· ≤ ·)).Pairwise (fun a b => a ≤ b) :=
              List.pairwise_insertionSort _ _
            have h2 : (ns.dedup.insertionSort (· ≤ ·)).Nodup :=
              (List.perm_insertionSort _ _).nodup_iff.2 (List.nodup_dedup _)
            exact (h1.and h2).imp (fun h => lt_of_le_of_ne h.1 h.2)
          · cases hm
        | other => cases hm
      · intro m
        cases n with
        | int k =>
          simp only [mkNList] at hm
          split at hm
          · injection hm with hm; subst hm; simp [NArg.Sizes]
          · cases hm
        | iter ns =>
          simp only [mkNList] at hm
          split at hm
          · injection hm with hm; subst hm
            simp only [NArg.Sizes]
            rw [(List.perm_insertionSort _ _).mem_iff, List.mem_dedup]
          · cases hm
        | other => cases hm
  obtain ⟨k1, k2, k3, k4⟩ := key
  refine ⟨c2.trans k1, by rw [c1]; exact k2, fun m => by rw [c1]; exact k3 m, fun w => ?_⟩
  unfold WL.fold
  rw [c3, k4]
  cases cs <;> rfl

/-- C32 in terms of the arguments: a lookup with a large `top_k` returns exactly the words sharing an n-gram of
one of the sizes `n` with the query and, unless `filter_n` is zero, also a `filter_n`-gram. -/
theorem C32_filter_arguments {S : Type} [LinearOrder S] (hcf : ∀ w, cf (cf w) = cf w) {n : NArg}
    {cs : Bool} {fn : ℤ} {st₀ : WL} (h0 : WL.new n cs fn = .ok st₀) (ops : List WLOp)
    {agg : List ℚ → S} (hagg : MonotoneAgg agg) {w : List Char} {k : ℤ} {normalize : Bool}
    (hk : ((st₀.run cf ops).vocabulary.length : ℤ) ≤ k) {res : List (List Char × (S ×ₗ ℚ))}
    (h : (st₀.run cf ops).lookup agg cf (.str w) (.int k) normalize = .ok res) (v : List Char) :
    v ∈ res.map Prod.fst ↔ v ∈ (st₀.run cf ops).vocabulary ∧
      (∃ m, n.Sizes m ∧ ∃ g, g ∈ gramsOf m (if cs then w else cf w) ∧ g ∈ gramsOf m v) ∧
      (fn = 0 ∨ ∃ g, g ∈ gramsOf fn (if cs then w else cf w) ∧ g ∈ gramsOf fn v) := by
  obtain ⟨a1, _, a3, a4⟩ := C32_arguments hcf h0 ops
  rw [C32_filter hcf ⟨n, cs, fn, st₀, ops, h0, rfl⟩ hagg hk h v, a1, a4]
  simp only [a3]

/-- A filter of four characters leaves "cabana" out. -/
example : ∃ st₀, WL.new (.iter [3, 2, 3]) true 4 = .ok st₀ ∧
    plain ((st₀.run id [.add (.str "bandana".toList), .add (.str "cabana".toList)]).lookup mean1 id
      (.str "bandan".toList) (.int 5) false) = .ok [("bandana", 895 / 84, 163 / 14)] :=
  ⟨{ demo₀ with filterN := 4 }, by decide +kernel, by decide +kernel⟩

/-- C70: `ApproxWordListV3` checks nothing but that `n` is a number or a list; it uses the sizes as given, in
their order, repeated sizes repeatedly. -/
theorem C70_arguments (n : NArg) (cs : Bool) :
    (V3.new n cs = .error .typeError ↔ n = .other) ∧ (∀ e, V3.new n cs = .error e → n = .other) ∧
    ∀ st₀, V3.new n cs = .ok st₀ → (n = .iter st₀.nList ∨ ∃ k, n = .int k ∧ st₀.nList = [k]) ∧
      st₀.vocabulary = [] ∧ ∀ cf w, st₀.fold cf w = if cs then w else cf w := by
  cases n with
  | other => simp [V3.new]
  | int k =>
    refine ⟨by simp [V3.new], by simp [V3.new], fun st₀ h => ?_⟩
    simp only [V3.new, Except.ok.injEq] at h
    subst h
    exact ⟨Or.inr ⟨k, rfl, rfl⟩, rfl, fun cf w => by cases cs <;> rfl⟩
  | iter ns =>
    refine ⟨by simp [V3.new], by simp [V3.new], fun st₀ h => ?_⟩
    simp only [V3.new, Except.ok.injEq] at h
    subst h
    exact ⟨Or.inl rfl, rfl, fun cf w => by cases cs <;> rfl⟩

/-- Sizes that the newer lists refuse. -/
example : (V3.new (.iter [3, 0, 3]) true).toOption.map V3.nList = some [3, 0, 3] ∧
    WL.new (.iter [3, 0, 3]) true 0 = .error .assertionError := by decide +kernel

end Verif
