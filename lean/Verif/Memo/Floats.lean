import Verif.Memo.LruProps

/-!
# C202: when `get_n_grams` accepts a float
-/

namespace Verif.Memo

open Verif.MemoSpec

variable {S : Type} [Ring S] [LinearOrder S]

/-! ## Every key greater than 1 is an integer -/

/-- The keys of the cache of `get_n_grams`. -/
def IntKeys (c : Caches) : Prop := ∀ e ∈ c.grams, 1 < e.1.2 → ∃ z : ℤ, e.1.2 = z

theorem callGrams_keys {c : Caches} (hc : IntKeys c) (M : ℕ) (w : List Char) (n : Num) :
    IntKeys (callGrams M c w n).2 := by
  unfold callGrams
  cases hg : Dict.get? c.grams (w, n.val) with
  | some a =>
    intro e he h1
    exact hc _ (mem_refresh (Dict.mem_of_get? hg) he) h1
  | none =>
    simp only
    cases hb : gramsBody w n with
    | error e => exact hc
    | ok l =>
      intro e he h1
      rcases mem_remember he with rfl | he
      · cases n with
        | int z => exact ⟨z, rfl⟩
        | float q =>
          simp only [gramsBody, Num.val] at hb h1
          rw [if_pos h1] at hb
          cases hb
      · exact hc _ he h1

theorem exec_keys {α : Type} (M : ℕ) (p : Prog α) {c : Caches} (hc : IntKeys c) :
    IntKeys (p.exec M c).2 := by
  induction p generalizing c with
  | ret a => exact hc
  | grams w n k ih =>
    have h := callGrams_keys hc M w n
    simp only [Prog.exec]
    rcases hr : callGrams M c w n with ⟨r, c'⟩
    rw [hr] at h
    cases r <;> exact ih _ h
  | nums l n k ih =>
    refine ih _ ?_
    unfold callNums
    split <;> exact hc

theorem step_keys (M : ℕ) (agg : List ℚ → S) (cf : List Char → List Char) {p : Proc}
    (hc : IntKeys p.caches) (op : Op) : IntKeys (p.step M agg cf op).1.caches := by
  cases op with
  | grams w n =>
    have h := callGrams_keys hc M w n
    simp only [Proc.step]
    rcases hr : callGrams M p.caches w n with ⟨r, c'⟩
    rw [hr] at h
    cases r <;> exact h
  | write a l => exact hc
  | nums l n => simp only [Proc.step]; unfold callNums; split <;> exact hc
  | clearGrams => simp [Proc.step, IntKeys]
  | clearNums => exact hc
  | newList n cs f => simp only [Proc.step]; split <;> exact hc
  | add i word => simp only [Proc.step]; split; exacts [hc, exec_keys M _ hc]
  | lookup i word topK nm => simp only [Proc.step]; split; exacts [hc, exec_keys M _ hc]
  | lookupV5 i word topK inv nm => simp only [Proc.step]; split; exacts [hc, exec_keys M _ hc]
  | newV5b n cs f => simp only [Proc.step]; split <;> exact hc
  | addV5b i word => simp only [Proc.step]; split; exacts [hc, exec_keys M _ hc]
  | lookupV5b i word topK nm => simp only [Proc.step]; split; exacts [hc, exec_keys M _ hc]
  | newV3 ns cs => exact hc
  | addV3 i word => simp only [Proc.step]; split; exacts [hc, exec_keys M _ hc]
  | lookupV3 i word topK => simp only [Proc.step]; split; exacts [hc, exec_keys M _ hc]

theorem run_keys (M : ℕ) (agg : List ℚ → S) (cf : List Char → List Char) (ops : List Op)
    {p : Proc} (hc : IntKeys p.caches) : IntKeys (p.run M agg cf ops).1.caches := by
  induction ops generalizing p with
  | nil => exact hc
  | cons op ops ih => exact ih (step_keys M agg cf hc op)

/-! ## What is still kept -/

theorem get?_asked {M : ℕ} {c : Caches} {w : List Char} {n : Num} {a : ℕ}
    (ha : (callGrams M c w n).1 = .ok a) :
    Dict.get? (callGrams M c w n).2.grams (w, n.val) = some a := by
  unfold callGrams at ha ⊢
  cases hb : Dict.get? c.grams (w, n.val) with
  | some b =>
    rw [hb] at ha
    simp only [refresh, Dict.get?_cons, if_true] at ha ⊢
    rw [Except.ok.inj ha]
  | none =>
    rw [hb] at ha
    simp only at ha ⊢
    cases hg : gramsBody w n with
    | error e => rw [hg] at ha; cases ha
    | ok l =>
      rw [hg] at ha
      simp only [remember, Dict.get?_cons, if_true] at ha ⊢
      rw [Except.ok.inj ha]

theorem get?_kept {M : ℕ} (hM : 1 ≤ M) {c : Caches} (hc : CacheInv M c) {w : List Char} {z : ℤ}
    {a : ℕ} (ha : (callGrams M c w (.int z)).1 = .ok a) {ks : List (List Char × ℤ)}
    (hk : (w, z) ∉ ks) :
    Dict.get? (askAll M (callGrams M c w (.int z)).2 ks).grams (w, (z : ℚ)) =
      if ks.dedup.length < M then some a else none := by
  have hget := get?_asked ha
  simp only [Num.val] at hget
  set c1 := (callGrams M c w (.int z)).2 with hc1
  have hi1 : CacheInv M c1 := callGrams_inv hM hc w (.int z)
  have hk1 : Dict.keys c1.grams = touch M (Dict.keys c.grams) (w, (z : ℚ)) := keys_callGrams_ok ha
  have hal : a < c1.heap.length := hi1.exist _ (Dict.mem_of_get? hget)
  have hsince : Since M (Dict.keys c1.grams) ∅ (w, (z : ℚ)) := by
    left
    refine ⟨by simp only [Finset.card_empty]; omega, [], ?_⟩
    rw [hk1]
    unfold touch
    split
    · exact ⟨_, rfl, by simp⟩
    · exact ⟨_, rfl, by simp⟩
  have hne : ∀ x ∈ ks, (x.1, (x.2 : ℚ)) ≠ (w, (z : ℚ)) := fun x hx h =>
    hk ((key_inj (a₁ := x) (a₂ := (w, z)) h) ▸ hx)
  obtain ⟨hi2, hs2, ha2, hh2⟩ := askAll_since hM (w, (z : ℚ)) a ks hne hi1 hsince
    (fun _ => hget) hal
  have hcard : ((ks.map (fun x => (x.1, (x.2 : ℚ)))).toFinset ∪ ∅).card = ks.dedup.length := by
    rw [Finset.union_empty, List.card_toFinset, List.dedup_map_of_injective key_inj,
      List.length_map]
  rw [← hcard]
  rcases hs2 with ⟨hlt, l1, l2, hl, -⟩ | ⟨hge, hnot⟩
  · rw [if_pos hlt]
    exact ha2 (by rw [hl]; simp)
  · rw [if_neg (by omega)]
    exact Dict.get?_eq_none.2 hnot

theorem heap_askAll (M : ℕ) (ks : List (List Char × ℤ)) {c : Caches} {a : ℕ}
    (ha : a < c.heap.length) : (askAll M c ks).heap.getD a [] = c.heap.getD a [] := by
  induction ks generalizing c with
  | nil => rfl
  | cons k ks ih =>
    have h : (callGrams M c k.1 (.int k.2)).2.heap.getD a [] = c.heap.getD a [] := by
      unfold callGrams
      split
      · rfl
      · simp only [gramsBody]
        rw [List.getD_eq_getElem?_getD, List.getD_eq_getElem?_getD, List.getElem?_append_left ha]
    exact (ih (ha.trans_le (heap_callGrams M c _ _))).trans h

theorem step_float (M : ℕ) (agg : List ℚ → S) (cf : List Char → List Char) (p : Proc)
    (w : List Char) (q : ℚ) (hq : 1 < q) :
    (p.step M agg cf (.grams w (.float q))).2 =
      match Dict.get? p.caches.grams (w, q) with
      | some a => .list (.ok (a, p.caches.heap.getD a []))
      | none => .list (.error .typeError) := by
  simp only [Proc.step, callGrams, Num.val]
  cases Dict.get? p.caches.grams (w, q) with
  | some a => rfl
  | none => simp only [gramsBody, if_pos hq]

/-- **C202.** Whether `get_n_grams` accepts a float greater than 1 depends on what the process has
done before. However it got where it is: `get_n_grams(w, q)` for a float `q > 1` that is not an
integer raises `TypeError`; but for an integer `z ≥ 2`, if it calls `get_n_grams(w, z)`, then the
function for other arguments `ks`, and then `get_n_grams(w, float(z))`, it gets the very list that
the first call returned, if fewer than `M` different arguments occur in `ks`, and `TypeError`
otherwise. -/
theorem C202_when_floats_are_accepted (M : ℕ) (hM : 1 ≤ M) (agg : List ℚ → S)
    (cf : List Char → List Char) (ops : List Op) (p : Proc)
    (hp : p = (Proc.start.run M agg cf ops).1) (w : List Char) :
    (∀ q : ℚ, 1 < q → (∀ z : ℤ, q ≠ z) →
      (p.run M agg cf [.grams w (.float q)]).2 = [.list (.error .typeError)]) ∧
    ∀ (z : ℤ) (ks : List (List Char × ℤ)), 2 ≤ z → (w, z) ∉ ks →
      ∃ a l, (p.run M agg cf (asks [(w, z)] ++ asks ks ++ [.grams w (.float z)])).2.head? =
          some (.list (.ok (a, l))) ∧
        (p.run M agg cf (asks [(w, z)] ++ asks ks ++ [.grams w (.float z)])).2.getLast? =
          some (.list (if ks.dedup.length < M then .ok (a, l) else .error .typeError)) := by
  have hc : CacheInv M p.caches := hp ▸ run_inv hM agg cf ops (start_inv M)
  have hi : IntKeys p.caches := hp ▸ run_keys M agg cf ops (by simp [IntKeys, Proc.start,
    Caches.empty])
  refine ⟨fun q hq hz => ?_, fun z ks hz hk => ?_⟩
  · have hn : Dict.get? p.caches.grams (w, q) = none := by
      cases h : Dict.get? p.caches.grams (w, q) with
      | none => rfl
      | some a =>
        obtain ⟨z, h⟩ := hi _ (Dict.mem_of_get? h) hq
        exact absurd h (hz z)
    have h := step_float M agg cf p w q hq
    rw [hn] at h
    simp only [Proc.run, h]
  · obtain ⟨a, ha⟩ := callGrams_int_ok M p.caches w z
    have hkept := get?_kept hM hc ha hk
    set c1 := (callGrams M p.caches w (.int z)).2 with hc1
    set p1 : Proc := { p with caches := c1 } with hp1
    have e1 : p.step M agg cf (.grams w (.int z)) = (p1, .list (.ok (a, c1.heap.getD a []))) :=
      step_grams M agg cf p w z ha
    have hal : a < c1.heap.length :=
      (callGrams_inv hM hc w (.int z)).exist _ (Dict.mem_of_get? (get?_asked ha))
    set p2 := (p1.run M agg cf (asks ks)).1 with hp2
    have hpc2 : p2.caches = askAll M c1 ks := run_asks M agg cf p1 ks
    have e3 : (p.run M agg cf (asks [(w, z)])).1 = p1 := by
      simp only [asks, List.map_cons, List.map_nil, Proc.run, e1]
    have e2 := step_float M agg cf p2 w z (by exact_mod_cast (by omega : (1 : ℤ) < z))
    rw [hpc2, hkept] at e2
    refine ⟨a, c1.heap.getD a [], ?_, ?_⟩
    · simp only [asks, List.map_cons, List.map_nil, List.cons_append, List.nil_append, Proc.run, e1,
        List.head?_cons]
    · rw [run_append, List.getLast?_append]
      simp only [run_append]
      rw [e3, ← hp2]
      simp only [Proc.run, List.getLast?_singleton, Option.some_or, e2]
      by_cases hlt : ks.dedup.length < M
      · simp only [if_pos hlt, heap_askAll M ks hal]
      · simp only [if_neg hlt]

/-- A cache of two places. -/
example :
    (Proc.start.run 2 mean1 id (asks [(['a', 'b'], 2)] ++ asks [(['c'], 2)] ++
        [.grams ['a', 'b'] (.float 2)])).2.getLast? =
      some (.list (.ok (0, [['\x02', 'a'], ['a', 'b'], ['b', '\x03']]))) ∧
    (Proc.start.run 2 mean1 id (asks [(['a', 'b'], 2)] ++ asks [(['c'], 2), (['d'], 2)] ++
        [.grams ['a', 'b'] (.float 2)])).2.getLast? = some (.list (.error .typeError)) ∧
    (Proc.start.run 2 mean1 id (asks [(['a', 'b'], 2)] ++ [.grams ['a', 'b'] (.float (5 / 2))])).2.getLast? =
      some (.list (.error .typeError)) := by
  refine ⟨?_, ?_, ?_⟩ <;> with_unfolding_all rfl

end Verif.Memo
