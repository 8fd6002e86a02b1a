import Verif.Fp.RangeSim
import Verif.Fp.SetProps

/-!
# Word sets: the range of exponents does not matter
-/

namespace Verif
namespace Fp

open GramSpec WordSetSpec

variable {comp : Bool} {O : FOps} {U : FOps} {cf : List Char → List Char} {un : Normalizer}

/-! ## Scores -/

theorem count_le_total {ns : List ℕ} {n : ℕ} (hn : n ∈ ns) (q w : List Char) :
    count n q + count n w ≤ totalCount ns q w :=
  List.le_sum_of_mem (List.mem_map_of_mem (f := fun n => count n q + count n w) hn)

theorem fracs_positionsOf {n : ℕ} {w g : List Char} (h : count n w ≤ 2 ^ 53) :
    Fracs (positionsOf n w g) := by
  rw [← locs_located]
  exact fracs_locs h

theorem simSF_range (hO : IsDouble comp O) (hU : U.fl = rne) {ns : List ℕ} (hnd : ns.Nodup)
    {q w : List Char} (hT : 2 * totalCount ns q w ≤ 2 ^ 53) :
    simSF O ns q w = simSF U ns q w ∧ Bd (-106) 0 (2 * totalCount ns q w) (simSF U ns q w) := by
  have wt : ((visited ns q w).map fun g =>
      2 * ((positionsOf g.length q g).length + (positionsOf g.length w g).length)).sum ≤
        2 * totalCount ns q w := by
    rw [List.sum_map_mul_left]
    have h := itemsLen_visited_le ns q w
    unfold itemsLen visitedItems at h
    rw [List.map_map] at h
    refine Nat.mul_le_mul_left 2 (le_trans (le_of_eq ?_) h)
    congr 1
    apply List.map_congr_left
    intro g hg
    have hl := length_mem_of_allGrams (mem_visited.1 hg).1
    simp only [Function.comp, locs_allLocated hnd hl]
  have h := foldl_range (e := -106) (k := 0) (M := 2 ^ 53)
    (f := fun s g => O.fl (s +
      O.fl (((positionsOf g.length q g).length : ℚ) + (positionsOf g.length w g).length -
        emdF O ((positionsOf g.length q g).map O.fl) ((positionsOf g.length w g).map O.fl))))
    (g := fun s g => U.fl (s +
      U.fl (((positionsOf g.length q g).length : ℚ) + (positionsOf g.length w g).length -
        emdF U ((positionsOf g.length q g).map U.fl) ((positionsOf g.length w g).map U.fl))))
    (fun g => 2 * ((positionsOf g.length q g).length + (positionsOf g.length w g).length))
    (visited ns q w) (by
      intro g hg s c hs hc
      have hl := length_mem_of_allGrams (mem_visited.1 hg).1
      have := count_le_total hl q w
      exact setStep_range hO hU (fracs_positionsOf (by omega)) (fracs_positionsOf (by omega)) hs hc)
    (s := 0) (c := 0) Bd.zero (by omega)
  exact ⟨h.1, h.2.mono (by omega)⟩

theorem scoreSF_range (hO : IsDouble comp O) (hU : U.fl = rne) {ns : List ℕ} (hnd : ns.Nodup)
    {q w : List Char} (hT : 2 * totalCount ns q w ≤ 2 ^ 53) :
    scoreSF O ns q w = scoreSF U ns q w := by
  obtain ⟨h1, h2⟩ := simSF_range hO hU hnd hT
  have h3 := (hO.quot_eq (d := (totalCount ns q w : ℤ)) (by norm_num) (by norm_num) hT h2
    (by rw [abs_of_nonneg (by omega)]; exact_mod_cast (by omega : totalCount ns q w ≤ 2 ^ 53))).1
  rw [Int.cast_natCast] at h3
  unfold scoreSF
  rw [h1, h3, hU]

/-! ## Rankings -/

theorem rankedBy_congr {sc sc' : List Char → ℚ} {ns : List ℕ} {q : List Char} {s : List Member}
    (h : ∀ m ∈ s, sc m.key = sc' m.key) (k : ℕ) : rankedBy sc ns q s k = rankedBy sc' ns q s k := by
  have key : ∀ l : List Member, (∀ m ∈ l, sc m.key = sc' m.key) →
      l.insertionSort (fun a b => sc b.key ≤ sc a.key) =
        l.insertionSort (fun a b => sc' b.key ≤ sc' a.key) := by
    intro l
    induction l with
    | nil => intro _; rfl
    | cons a l ih =>
      intro hl
      rw [List.insertionSort_cons, List.insertionSort_cons, ih fun m hm => hl m (by simp [hm])]
      have hmem : ∀ m ∈ l.insertionSort (fun a b => sc' b.key ≤ sc' a.key), sc m.key = sc' m.key :=
        fun m hm => hl m (by simp [(List.perm_insertionSort _ l).mem_iff.1 hm])
      generalize l.insertionSort (fun a b => sc' b.key ≤ sc' a.key) = t at hmem
      induction t with
      | nil => rfl
      | cons b t iht =>
        simp only [List.orderedInsert_cons, hl a (by simp), hmem b (by simp),
          iht fun m hm => hmem m (by simp [hm])]
  unfold rankedBy
  rw [key _ fun m hm => h m (List.mem_filter.1 hm).1]

/-! ## Calls -/

/-- The number of characters of a normalised word, and of sizes of n-grams, for which it is shown that the range
of exponents is sufficient. -/
def ShortKey (key : List Char → Option (List Char)) (w : List Char) : Prop :=
  ∀ k, key w = some k → k.length ≤ 2 ^ 30

/-- The words passed to a call are short once normalised. -/
def ShortOp (key : List Char → Option (List Char)) : WSOp → Prop
  | .add (.str w) => ShortKey key w
  | .ior vs => ∀ w, .str w ∈ vs → ShortKey key w
  | .findSimilar (.str q) _ _ => ShortKey key q
  | .suggest (.str q) _ => ShortKey key q
  | _ => True

/-- All members are short. -/
def ShortSet (s : List Member) : Prop := ∀ m ∈ s, m.key.length ≤ 2 ^ 30

theorem total_le {ns : List ℕ} {q w : List Char} (hn : ns.length ≤ 2 ^ 20) (hq : q.length ≤ 2 ^ 30)
    (hw : w.length ≤ 2 ^ 30) : 2 * totalCount ns q w ≤ 2 ^ 53 := by
  have h : ∀ x ∈ ns.map (fun n => count n q + count n w), x ≤ 2 ^ 31 + 6 := by
    intro x hx
    obtain ⟨n, _, rfl⟩ := List.mem_map.1 hx
    unfold count bracketed
    simp only [List.length_append, List.length_cons, List.length_nil]
    omega
  have := List.sum_le_card_nsmul _ _ h
  rw [List.length_map, smul_eq_mul] at this
  have h2 : ns.length * (2 ^ 31 + 6) ≤ 2 ^ 20 * (2 ^ 31 + 6) := Nat.mul_le_mul_right _ hn
  unfold totalCount
  omega

theorem absFindF_range (hO : IsDouble comp O) (hU : U.fl = rne) {key : List Char → Option (List Char)}
    {ns : List ℕ} (hnd : ns.Nodup) (hn : ns.length ≤ 2 ^ 20) {s : List Member} (hs : ShortSet s)
    {q : PyVal} (hq : ∀ w, q = .str w → ShortKey key w) (k : PyVal) (ms : MinSim) :
    absFindF O key ns s q k ms = absFindF U key ns s q k ms := by
  cases q with
  | int i => cases k <;> rfl
  | other => cases k <;> rfl
  | str q =>
    cases k with
    | str w => rfl
    | other => rfl
    | int k =>
      unfold absFindF
      simp only
      cases hk : key q with
      | none => rfl
      | some nq =>
        have hl := hq q rfl nq hk
        have hsc : ∀ m ∈ s, scoreSF O ns nq m.key = scoreSF U ns nq m.key :=
          fun m hm => scoreSF_range hO hU hnd (total_le hn hl (hs m hm))
        simp only [rankedBy_congr hsc]
        have : (rankedBy (scoreSF U ns nq) ns nq s k.toNat).map
              (fun m => (m.orig, scoreSF O ns nq m.key)) =
            (rankedBy (scoreSF U ns nq) ns nq s k.toNat).map
              (fun m => (m.orig, scoreSF U ns nq m.key)) := by
          apply List.map_congr_left
          intro m hm
          unfold rankedBy at hm
          have := (List.perm_insertionSort _ _).mem_iff.1 (List.mem_of_mem_take hm)
          rw [hsc m (List.mem_filter.1 this).1]
        rw [this]

theorem ShortSet.add {key : List Char → Option (List Char)} {s : List Member} (hs : ShortSet s)
    {v : PyVal} (hv : ∀ w, v = .str w → ShortKey key w) : ShortSet (absAdd key s v).1 := by
  cases v with
  | int i => exact hs
  | other => exact hs
  | str w =>
    have hk := hv w rfl
    unfold absAdd
    simp only
    split
    · exact hs
    · exact hs
    · exact hs
    · rename_i k _ _ he
      intro m hm
      simp only [WordSetSpec.insert] at hm
      split at hm
      · exact hs m hm
      · rcases List.mem_append.1 hm with hm | hm
        · exact hs m hm
        · rw [List.mem_singleton] at hm
          subst hm
          exact hk _ he

theorem ShortSet.delete {s : List Member} (hs : ShortSet s) (k : List Char) : ShortSet (delete s k) :=
  fun m hm => hs m (List.mem_filter.1 hm).1

theorem ShortSet.discard {key : List Char → Option (List Char)} {s : List Member} (hs : ShortSet s)
    (v : PyVal) : ShortSet (absDiscard key s v).1 := by
  unfold absDiscard
  split
  · split
    · exact hs
    · exact hs.delete _
  · exact hs

theorem ShortSet.remove {key : List Char → Option (List Char)} {s : List Member} (hs : ShortSet s)
    (v : PyVal) : ShortSet (absRemove key s v).1 := by
  unfold absRemove
  split
  · split
    · exact hs
    · split
      · exact hs.delete _
      · exact hs
  · exact hs

theorem ShortSet.forEach {f : List Member → PyVal → List Member × Except PyErr Unit}
    (vs : List PyVal) (hf : ∀ s, ShortSet s → ∀ v ∈ vs, ShortSet (f s v).1) {s : List Member}
    (hs : ShortSet s) : ShortSet (absForEach f s vs).1 := by
  induction vs generalizing s with
  | nil => exact hs
  | cons v vs ih =>
    have h1 := hf s hs v (by simp)
    unfold absForEach
    split
    · rename_i s' _ he
      rw [he] at h1
      exact ih (fun s hs v hv => hf s hs v (by simp [hv])) h1
    · rename_i s' _ he
      rw [he] at h1
      exact h1

theorem ShortSet.step {key : List Char → Option (List Char)} {ns : List ℕ} {s : List Member}
    (hs : ShortSet s) {op : WSOp} (ho : ShortOp key op) : ShortSet (absStep key ns s op).1 := by
  cases op with
  | add v => exact hs.add (fun w hw => by subst hw; exact ho)
  | discard v => exact hs.discard v
  | remove v => exact hs.remove v
  | clear => exact fun m hm => nomatch hm
  | pop =>
    cases s with
    | nil => exact hs
    | cons m s => exact fun x hx => hs x (List.mem_cons_of_mem _ hx)
  | ior vs =>
    exact ShortSet.forEach vs (fun s hs v hv => hs.add (fun w hw => ho w (hw ▸ hv))) hs
  | isub vs => exact ShortSet.forEach vs (fun s hs v _ => hs.discard v) hs
  | contains v => exact hs
  | len => exact hs
  | iter => exact hs
  | findSimilar q k ms => exact hs
  | suggest q k => exact hs

theorem setStepF_range (hO : IsDouble comp O) (hU : U.fl = rne) {st : WS} {s : List Member}
    (h : Rep cf un st s) (hs : ShortSet s) (hn : st.nList.length ≤ 2 ^ 20) {op : WSOp}
    (ho : ShortOp (st.key cf un) op) :
    (setStepF O cf un (flWS O st) op).2 = (setStepF U cf un (flWS U st) op).2 := by
  have hnd := h.nodupSizes
  by_cases hsc : WSOpScored op
  · have key : ∀ q : PyVal, (∀ w, q = .str w → ShortKey (st.key cf un) w) → ∀ k ms,
        findSimilarF O cf un (flWS O st) q k ms = findSimilarF U cf un (flWS U st) q k ms := by
      intro q hq k ms
      rw [findSimilarF_abs h, findSimilarF_abs h]
      exact absFindF_range hO hU hnd (by rw [show st.sizes = st.nList.map Int.toNat from rfl, List.length_map]; exact hn) hs hq k ms
    cases op with
    | findSimilar q k ms =>
      simp only [setStepF]
      rw [key q (fun w hw => by subst hw; exact ho)]
    | suggest q k =>
      simp only [setStepF, suggestF]
      rw [key q (fun w hw => by subst hw; exact ho)]
    | _ => exact absurd hsc id
  · rw [setStepF_out st hsc, setStepF_out st hsc]

theorem setOutputsF_range (hO : IsDouble comp O) (hU : U.fl = rne) (ops : List WSOp) {st : WS}
    {s : List Member} (h : Rep cf un st s) (hs : ShortSet s) (hn : st.nList.length ≤ 2 ^ 20)
    (ho : ∀ op ∈ ops, ShortOp (st.key cf un) op) :
    setOutputsF O cf un (flWS O st) ops = setOutputsF U cf un (flWS U st) ops := by
  induction ops generalizing st s with
  | nil => rfl
  | cons op ops ih =>
    unfold setOutputsF
    obtain ⟨h1, _, h3⟩ := h.step op
    rw [setStepF_range hO hU h hs hn (ho op (by simp)), setStepF_state, setStepF_state,
      ih h1 (hs.step (ho op (by simp))) (by rw [h3.2.1]; exact hn)
        (fun op' hop => by rw [h3.key]; exact ho op' (by simp [hop]))]

end Fp
end Verif
