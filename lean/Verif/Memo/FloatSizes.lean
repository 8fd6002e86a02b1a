import Verif.Memo.Floats
import Verif.Memo.Spoiled

/-!
# C199: which lists made with floats accept words
-/

namespace Verif.Memo

open Verif.MemoSpec

variable {S : Type} [Ring S] [LinearOrder S]

/-! ## Every remembered number of n-grams has the right value -/

/-- The values in the cache of `num_grams` for sizes greater than 1. -/
def NumVals (c : Caches) : Prop :=
  ∀ e ∈ c.nums, 1 < e.1.2 → e.2.val = (e.1.1 : ℚ) + 3 - e.1.2

theorem numsBody_val (l : ℕ) (n : Num) (h : 1 < n.val) : (numsBody l n).val = (l : ℚ) + 3 - n.val := by
  cases n with
  | int z =>
    have hz : z > 1 := by
      simp only [Num.val] at h
      exact_mod_cast h
    simp only [numsBody, Num.val, numGrams, if_pos hz]
    push_cast
    ring
  | float q =>
    have hq : q > 1 := by simpa [Num.val] using h
    simp only [numsBody, if_pos hq, Num.val]
    ring

theorem callNums_vals {c : Caches} (hc : NumVals c) (M : ℕ) (l : ℕ) (n : Num) :
    NumVals (callNums M c l n).2 ∧
      (1 < n.val → (callNums M c l n).1.val = (l : ℚ) + 3 - n.val) := by
  unfold callNums
  cases hg : Dict.get? c.nums (l, n.val) with
  | some v =>
    exact ⟨fun e he h1 => hc _ (mem_refresh (Dict.mem_of_get? hg) he) h1,
      fun h => hc _ (Dict.mem_of_get? hg) h⟩
  | none =>
    refine ⟨fun e he h1 => ?_, numsBody_val l n⟩
    rcases mem_remember he with rfl | he
    · exact numsBody_val l n h1
    · exact hc _ he h1

theorem callGrams_vals {c : Caches} (hc : NumVals c) (M : ℕ) (w : List Char) (n : Num) :
    NumVals (callGrams M c w n).2 := by
  unfold callGrams
  split
  · exact hc
  · split <;> exact hc

theorem exec_vals {α : Type} (M : ℕ) (p : Prog α) {c : Caches} (hc : NumVals c) :
    NumVals (p.exec M c).2 := by
  induction p generalizing c with
  | ret a => exact hc
  | grams w n k ih =>
    have h := callGrams_vals hc M w n
    simp only [Prog.exec]
    rcases hr : callGrams M c w n with ⟨r, c'⟩
    rw [hr] at h
    cases r <;> exact ih _ h
  | nums l n k ih => exact ih _ (callNums_vals hc M l n).1

theorem step_vals (M : ℕ) (agg : List ℚ → S) (cf : List Char → List Char) {p : Proc}
    (hc : NumVals p.caches) (op : Op) : NumVals (p.step M agg cf op).1.caches := by
  cases op with
  | grams w n =>
    have h := callGrams_vals hc M w n
    simp only [Proc.step]
    rcases hr : callGrams M p.caches w n with ⟨r, c'⟩
    rw [hr] at h
    cases r <;> exact h
  | write a l => exact hc
  | nums l n => exact (callNums_vals hc M l n).1
  | clearGrams => exact hc
  | clearNums => simp [Proc.step, NumVals]
  | newList n cs f => simp only [Proc.step]; split <;> exact hc
  | add i word => simp only [Proc.step]; split; exacts [hc, exec_vals M _ hc]
  | lookup i word topK nm => simp only [Proc.step]; split; exacts [hc, exec_vals M _ hc]
  | lookupV5 i word topK inv nm => simp only [Proc.step]; split; exacts [hc, exec_vals M _ hc]
  | newV5b n cs f => simp only [Proc.step]; split <;> exact hc
  | addV5b i word => simp only [Proc.step]; split; exacts [hc, exec_vals M _ hc]
  | lookupV5b i word topK nm => simp only [Proc.step]; split; exacts [hc, exec_vals M _ hc]
  | newV3 ns cs => exact hc
  | addV3 i word => simp only [Proc.step]; split; exacts [hc, exec_vals M _ hc]
  | lookupV3 i word topK => simp only [Proc.step]; split; exacts [hc, exec_vals M _ hc]

theorem run_vals (M : ℕ) (agg : List ℚ → S) (cf : List Char → List Char) (ops : List Op)
    {p : Proc} (hc : NumVals p.caches) : NumVals (p.run M agg cf ops).1.caches := by
  induction ops generalizing p with
  | nil => exact hc
  | cons op ops ih => exact ih (step_vals M agg cf hc op)

/-! ## Adding a word to an empty list -/

theorem numSet_two (m n : Num) (h : m.val = n.val) : numSet [m, n] = [m] := by
  have h1 : [m, n].pwFilter (fun a b => a.val ≠ b.val) = [n] := by
    rw [List.pwFilter_cons_of_neg, List.pwFilter_cons_of_pos (by simp), List.pwFilter_nil]
    rw [List.pwFilter_cons_of_pos (by simp), List.pwFilter_nil]
    simp [h]
  rw [numSet, h1]
  simp [h]

/-- As `v3_add_new`, for any list of sizes that are all equal. -/
theorem v3_add_one (M : ℕ) (cf : List Char → List Char) (ns : List Num) (n : Num)
    (hs : numSet ns = [n]) (hn : n.val > 1)
    (w : List Char) (hw : w ≠ []) (hm : '\x02' ∉ w ∧ '\x03' ∉ w) (c : Caches) :
    ((v3AddWordP cf ns (v3New ns true) (.str w)).exec M c).1.2 =
        (match windows w n (callNums M c w.length n).1 with
          | .error e => .error e
          | .ok _ => .ok ()) ∧
      ((v3AddWordP cf ns (v3New ns true) (.str w)).exec M c).2 = (callNums M c w.length n).2 := by
  have hl : w.length ≠ 0 := by simpa using hw
  have hf : (v3New ns true).fold cf w = w := rfl
  have hr : (v3New ns true).resolve cf w true =
      (⟨ns.map Num.toInt, false, [w], [(w, 0)], []⟩, .ok (some 0)) := by
    unfold V3.resolve
    rw [if_neg hl]
    simp only [hf]
    simp [v3New, Dict.set]
  unfold v3AddWordP
  simp only [if_neg hl, hf]
  rw [if_neg (by simp [v3New, Dict.has]), if_neg (by simpa using hm), hr]
  simp only [hs, Option.getD_some, v3AddGramsP]
  rw [exec_bind]
  unfold v3GramsP
  rw [if_pos hn]
  simp only [ExceptT.run, ExceptT.mk, Prog.exec]
  cases windows w n (callNums M c w.length n).1 <;> exact ⟨rfl, rfl⟩

theorem windows_float (w : List Char) (q : ℚ) (v : Num) (hv : 0 < v.val) :
    windows w (.float q) v = .error .typeError := by
  cases v with
  | float r => rfl
  | int m =>
    have hm : 0 < m := by simpa [Num.val] using hv
    simp only [windows]
    rw [if_neg (by omega)]

theorem step_newAdd (M : ℕ) (agg : List ℚ → S) (cf : List Char → List Char) (p : Proc)
    (ns : List Num) (word : PyVal) :
    (p.run M agg cf [.newV3 ns true, .addV3 p.v3s.length word]).2 =
      [.unit (.ok ()), .unit ((v3AddWordP cf ns (v3New ns true) word).exec M p.caches).1.2] ∧
    (p.run M agg cf [.newV3 ns true, .addV3 p.v3s.length word]).1.caches =
      ((v3AddWordP cf ns (v3New ns true) word).exec M p.caches).2 := by
  simp only [Proc.run, Proc.step, List.getElem?_append_right (le_refl _), Nat.sub_self,
    List.getElem?_cons_zero, and_self]

/-- **C199.** Whatever the process has done before, adding a word to `ApproxWordListV3([q])` for a float `q`
greater than 1 raises `TypeError` if the word is longer than `q - 3`, that is, if it has an n-gram. A list made
with a float therefore works by accident only: if `z` is an integer, the word has no n-gram of size `z`, and
`num_grams` was first called with the int, then adding the word to `ApproxWordListV3([float(z)])` succeeds. -/
theorem C199_float_sizes (M : ℕ) (agg : List ℚ → S) (cf : List Char → List Char) (ops : List Op)
    (p : Proc) (hp : p = (Proc.start.run M agg cf ops).1) (w : List Char) (hw : w ≠ [])
    (hm : '\x02' ∉ w ∧ '\x03' ∉ w) :
    (∀ q : ℚ, 1 < q → q < (w.length : ℚ) + 3 →
      (p.run M agg cf [.newV3 [.float q] true, .addV3 p.v3s.length (.str w)]).2 =
        [.unit (.ok ()), .unit (.error .typeError)]) ∧
    ∀ z : ℤ, (w.length : ℤ) + 3 ≤ z → Dict.get? p.caches.nums (w.length, (z : ℚ)) = none →
      (p.run M agg cf [.newV3 [.float z] true, .addV3 p.v3s.length (.str w)]).2 =
        [.unit (.ok ()), .unit (.error .typeError)] ∧
      (p.run M agg cf [.nums w.length (.int z), .newV3 [.float z] true,
        .addV3 p.v3s.length (.str w)]).2.getLast? = some (.unit (.ok ())) := by
  have hc : NumVals p.caches := hp ▸ run_vals M agg cf ops (by simp [NumVals, Proc.start,
    Caches.empty])
  refine ⟨fun q hq hl => ?_, fun z hz hfresh => ⟨?_, ?_⟩⟩
  · rw [(step_newAdd M agg cf p [.float q] (.str w)).1,
      (v3_add_one M cf [.float q] (.float q) (numSet_one _) hq w hw hm p.caches).1,
      windows_float]
    rw [(callNums_vals hc M w.length (.float q)).2 hq]
    simp only [Num.val]
    linarith
  · have hz1 : (1 : ℚ) < z := by exact_mod_cast (by omega : (1 : ℤ) < z)
    rw [(step_newAdd M agg cf p [.float z] (.str w)).1,
      (v3_add_one M cf [.float z] (.float z) (numSet_one _) hz1 w hw hm p.caches).1]
    have e : (callNums M p.caches w.length (.float z)).1 = .float (w.length + 2 + 1 - z) := by
      unfold callNums
      simp only [Num.val]
      rw [hfresh]
      simp [numsBody, hz1]
    rw [e]
    rfl
  · have hz1 : (1 : ℚ) < z := by exact_mod_cast (by omega : (1 : ℤ) < z)
    have hz2 : z > 1 := by omega
    set p1 : Proc := { p with caches := (callNums M p.caches w.length (.int z)).2 } with hp1
    have e := step_newAdd M agg cf p1 [.float z] (.str w)
    have e1 : (p.run M agg cf [.nums w.length (.int z), .newV3 [.float z] true,
        .addV3 p.v3s.length (.str w)]).2 =
        (p.run M agg cf [.nums w.length (.int z)]).2 ++
        (p1.run M agg cf [.newV3 [.float z] true, .addV3 p1.v3s.length (.str w)]).2 := rfl
    rw [e1, e.1,
      (v3_add_one M cf [.float z] (.float z) (numSet_one _) hz1 w hw hm p1.caches).1,
      (callNums_hit M p.caches w.length (.int z) hfresh (.float z) rfl).1]
    simp only [numsBody, numGrams, if_pos hz2, windows]
    rw [if_pos (by omega)]
    simp

/-- `num_grams(3, 7)` is `-1`; "cat" has 4 n-grams of size 2. -/
example : (Proc.start.run 0xFFFF mean1 id [.nums 3 (.int 7), .newV3 [.float 7] true,
      .addV3 0 (.str ['c', 'a', 't'])]).2 =
      [.num (.int (-1)), .unit (.ok ()), .unit (.ok ())] ∧
    (Proc.start.run 0xFFFF mean1 id [.nums 3 (.int 2), .newV3 [.float 2] true,
      .addV3 0 (.str ['c', 'a', 't'])]).2 =
      [.num (.int 4), .unit (.ok ()), .unit (.error .typeError)] := by
  constructor <;> with_unfolding_all rfl

/-- **C199.** Of equal sizes the first one counts: words that have an n-gram can be added to
`ApproxWordListV3([z, float(z)])` if `num_grams` has not been called with a float before, but never to
`ApproxWordListV3([float(z), z])`. -/
theorem C199_mixed_sizes (M : ℕ) (agg : List ℚ → S) (cf : List Char → List Char) (ops : List Op)
    (p : Proc) (hp : p = (Proc.start.run M agg cf ops).1) (w : List Char) (hw : w ≠ [])
    (hm : '\x02' ∉ w ∧ '\x03' ∉ w) (z : ℤ) (hz : 2 ≤ z) (hl : z ≤ (w.length : ℤ) + 2) :
    (p.run M agg cf [.newV3 [.float z, .int z] true, .addV3 p.v3s.length (.str w)]).2 =
      [.unit (.ok ()), .unit (.error .typeError)] ∧
    (Dict.get? p.caches.nums (w.length, (z : ℚ)) = none →
      (p.run M agg cf [.newV3 [.int z, .float z] true, .addV3 p.v3s.length (.str w)]).2 =
        [.unit (.ok ()), .unit (.ok ())]) := by
  have hc : NumVals p.caches := hp ▸ run_vals M agg cf ops (by simp [NumVals, Proc.start,
    Caches.empty])
  have hz1 : (1 : ℚ) < z := by exact_mod_cast (by omega : (1 : ℤ) < z)
  refine ⟨?_, fun hfresh => ?_⟩
  · rw [(step_newAdd M agg cf p [.float z, .int z] (.str w)).1,
      (v3_add_one M cf [.float z, .int z] (.float z) (numSet_two _ _ rfl) hz1 w hw hm p.caches).1,
      windows_float]
    rw [(callNums_vals hc M w.length (.float z)).2 hz1]
    simp only [Num.val]
    have : (z : ℚ) ≤ (w.length : ℚ) + 2 := by exact_mod_cast hl
    linarith
  · rw [(step_newAdd M agg cf p [.int z, .float z] (.str w)).1,
      (v3_add_one M cf [.int z, .float z] (.int z) (numSet_two _ _ rfl) hz1 w hw hm p.caches).1]
    have e : (callNums M p.caches w.length (.int z)).1 = .int (numGrams w.length z) := by
      unfold callNums
      simp only [Num.val]
      rw [hfresh]
      rfl
    rw [e]
    rfl

/-- "cat" and bigrams. -/
example : (Proc.start.run 0xFFFF mean1 id [.newV3 [.int 2, .float 2] true, .newV3 [.float 2, .int 2] true,
      .addV3 0 (.str ['c', 'a', 't']), .addV3 1 (.str ['c', 'a', 't'])]).2 =
      [.unit (.ok ()), .unit (.ok ()), .unit (.ok ()), .unit (.error .typeError)] := by
  with_unfolding_all rfl

end Verif.Memo
