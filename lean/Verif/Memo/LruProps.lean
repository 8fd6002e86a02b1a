import Verif.Memo.Lru

/-!
# C199-C201: what goes wrong with the caches, and for how long
-/

namespace Verif.Memo

open Verif.MemoSpec

variable {S : Type} [Ring S] [LinearOrder S]

theorem run_append (M : ℕ) (agg : List ℚ → S) (cf : List Char → List Char) (p : Proc)
    (xs ys : List Op) :
    p.run M agg cf (xs ++ ys) =
      (((p.run M agg cf xs).1.run M agg cf ys).1,
        (p.run M agg cf xs).2 ++ ((p.run M agg cf xs).1.run M agg cf ys).2) := by
  induction xs generalizing p with
  | nil => rfl
  | cons x xs ih => simp only [List.cons_append, Proc.run, ih]

/-- The calls `get_n_grams(w, n)` for the pairs `(w, n)` in `ks`. -/
def asks (ks : List (List Char × ℤ)) : List Op := ks.map (fun k => .grams k.1 (.int k.2))

theorem step_grams (M : ℕ) (agg : List ℚ → S) (cf : List Char → List Char) (p : Proc)
    (w : List Char) (z : ℤ) {a : ℕ} (h : (callGrams M p.caches w (.int z)).1 = .ok a) :
    p.step M agg cf (.grams w (.int z)) =
      ({ p with caches := (callGrams M p.caches w (.int z)).2 },
        .list (.ok (a, (callGrams M p.caches w (.int z)).2.heap.getD a []))) := by
  simp only [Proc.step]
  rcases hc : callGrams M p.caches w (.int z) with ⟨r, c⟩
  rw [hc] at h
  simp only at h
  subst h
  rfl

theorem run_asks (M : ℕ) (agg : List ℚ → S) (cf : List Char → List Char) (p : Proc)
    (ks : List (List Char × ℤ)) :
    (p.run M agg cf (asks ks)).1.caches = askAll M p.caches ks := by
  induction ks generalizing p with
  | nil => rfl
  | cons k ks ih =>
    obtain ⟨a, ha⟩ := callGrams_int_ok M p.caches k.1 k.2
    rw [asks, List.map_cons]
    simp only [Proc.run]
    rw [step_grams M agg cf p k.1 k.2 ha]
    exact ih _

theorem key_inj : Function.Injective (fun x : List Char × ℤ => (x.1, (x.2 : ℚ))) := by
  intro x y h
  obtain ⟨a, b⟩ := x
  obtain ⟨c, d⟩ := y
  simp only [Prod.mk.injEq, Int.cast_inj] at h
  exact Prod.ext h.1 h.2

/-- **C201.** However a process got where it is, the caches hold at most `M` entries; and if it
calls `get_n_grams(w, n)`, then the function for other arguments `ks`, and then `get_n_grams(w, n)`
again, it gets the same list object if and only if fewer than `M` different arguments occur in
`ks`. Otherwise it gets a new list with the right contents, whatever was done to the old one. -/
theorem C201_how_long_lists_are_kept (M : ℕ) (hM : 1 ≤ M) (agg : List ℚ → S)
    (cf : List Char → List Char) (ops : List Op) (p : Proc)
    (hp : p = (Proc.start.run M agg cf ops).1) :
    p.caches.grams.length ≤ M ∧ p.caches.nums.length ≤ M ∧
      ∀ (w : List Char) (z : ℤ) (ks : List (List Char × ℤ)), (w, z) ∉ ks →
        ∃ a l a' l', (p.run M agg cf (asks [(w, z)] ++ asks ks ++ asks [(w, z)])).2.head? =
            some (.list (.ok (a, l))) ∧
          (p.run M agg cf (asks [(w, z)] ++ asks ks ++ asks [(w, z)])).2.getLast? =
            some (.list (.ok (a', l'))) ∧
          (a' = a ↔ ks.dedup.length < M) ∧ (a' ≠ a → l' = getNGrams w z) := by
  have hc : CacheInv M p.caches := hp ▸ run_inv hM agg cf ops (start_inv M)
  refine ⟨by simpa [Dict.keys] using hc.gramsLen, by simpa [Dict.keys] using hc.numsLen,
    fun w z ks hk => ?_⟩
  obtain ⟨a, ha⟩ := callGrams_int_ok M p.caches w z
  set c1 := (callGrams M p.caches w (.int z)).2 with hc1
  have hi1 : CacheInv M c1 := callGrams_inv hM hc w (.int z)
  have hk1 : Dict.keys c1.grams = touch M (Dict.keys p.caches.grams) (w, (z : ℚ)) :=
    keys_callGrams_ok ha
  have hget : Dict.get? c1.grams (w, (z : ℚ)) = some a := by
    rw [hc1]
    unfold callGrams at ha ⊢
    split
    next b hb =>
      rw [hb] at ha
      simp only [refresh, Dict.get?_cons, Num.val, if_true] at ha ⊢
      rw [Except.ok.inj ha]
    next hb =>
      rw [hb] at ha
      simp only [gramsBody, remember, Dict.get?_cons, Num.val, if_true] at ha ⊢
      rw [Except.ok.inj ha]
  have hal : a < c1.heap.length := hi1.exist _ (Dict.mem_of_get? hget)
  have hsince : Since M (Dict.keys c1.grams) ∅ (w, (z : ℚ)) := by
    left
    refine ⟨by simp only [Finset.card_empty]; omega, [], ?_⟩
    rw [hk1]
    unfold touch
    split
    · exact ⟨_, rfl, by simp⟩
    · exact ⟨_, rfl, by simp⟩
  have hne : ∀ x ∈ ks, (x.1, (x.2 : ℚ)) ≠ (w, (z : ℚ)) := fun x hx h =>
    hk ((key_inj (a₁ := x) (a₂ := (w, z)) h) ▸ hx)
  obtain ⟨hi2, hs2, ha2, hh2⟩ := askAll_since hM (w, (z : ℚ)) a ks hne hi1 hsince
    (fun _ => hget) hal
  have hcard : ((ks.map (fun x => (x.1, (x.2 : ℚ)))).toFinset ∪ ∅).card = ks.dedup.length := by
    rw [Finset.union_empty, List.card_toFinset, List.dedup_map_of_injective key_inj,
      List.length_map]
  set c2 := askAll M c1 ks with hc2
  obtain ⟨a', ha'⟩ := callGrams_int_ok M c2 w z
  set p1 : Proc := { p with caches := c1 } with hp1
  have e1 : p.step M agg cf (.grams w (.int z)) = (p1, .list (.ok (a, c1.heap.getD a []))) :=
    step_grams M agg cf p w z ha
  set p2 := (p1.run M agg cf (asks ks)).1 with hp2
  have hpc2 : p2.caches = c2 := run_asks M agg cf p1 ks
  have ha'' : (callGrams M p2.caches w (.int z)).1 = .ok a' := by rw [hpc2]; exact ha'
  have e2 := step_grams M agg cf p2 w z ha''
  refine ⟨a, c1.heap.getD a [], a', (callGrams M c2 w (.int z)).2.heap.getD a' [], ?_, ?_, ?_, ?_⟩
  · simp only [asks, List.map_cons, List.map_nil, List.cons_append, List.nil_append, Proc.run, e1,
      List.head?_cons]
  · rw [run_append, List.getLast?_append]
    simp only [run_append]
    have e3 : (p.run M agg cf (asks [(w, z)])).1 = p1 := by
      simp only [asks, List.map_cons, List.map_nil, Proc.run, e1]
    rw [e3, ← hp2]
    simp only [asks, List.map_cons, List.map_nil, Proc.run, e2, List.getLast?_singleton,
      Option.some_or, hpc2]
  · rw [← hcard]
    rcases hs2 with ⟨hlt, l1, l2, hl, -⟩ | ⟨hge, hnot⟩
    · refine ⟨fun _ => hlt, fun _ => ?_⟩
      have hg := ha2 (by rw [hl]; simp)
      unfold callGrams at ha'
      simp only [Num.val] at ha'
      rw [hg] at ha'
      exact (Except.ok.inj ha').symm
    · refine ⟨fun h => ?_, fun h => absurd h (by omega)⟩
      unfold callGrams at ha'
      simp only [Num.val] at ha'
      rw [Dict.get?_eq_none.2 hnot] at ha'
      simp only [gramsBody] at ha'
      have := Except.ok.inj ha'
      omega
  · intro hne'
    unfold callGrams at ha' ⊢
    simp only [Num.val] at ha' ⊢
    by_cases hmem : (w, (z : ℚ)) ∈ Dict.keys c2.grams
    · rw [ha2 hmem] at ha'
      exact absurd (Except.ok.inj ha').symm hne'
    · rw [Dict.get?_eq_none.2 hmem] at ha' ⊢
      simp only [gramsBody] at ha' ⊢
      rw [← Except.ok.inj ha', List.getD_eq_getElem?_getD, List.getElem?_concat_length,
        Option.getD_some]

/-- A cache of two places: the list of `('ab', 2)` survives one other call, not two. -/
example :
    (Proc.start.run 2 mean1 id (asks [(['a', 'b'], 2)] ++ asks [(['c'], 2), (['c'], 2)] ++
        asks [(['a', 'b'], 2)])).2.getLast? =
      some (.list (.ok (0, [['\x02', 'a'], ['a', 'b'], ['b', '\x03']]))) ∧
    (Proc.start.run 2 mean1 id (asks [(['a', 'b'], 2)] ++ asks [(['c'], 2), (['d'], 2)] ++
        asks [(['a', 'b'], 2)])).2.getLast? =
      some (.list (.ok (3, [['\x02', 'a'], ['a', 'b'], ['b', '\x03']]))) := by
  constructor <;> with_unfolding_all rfl

end Verif.Memo
