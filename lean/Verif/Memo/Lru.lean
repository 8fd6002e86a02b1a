import Verif.Memo.Props
import Mathlib.Data.Finset.Card
import Mathlib.Data.Finset.Dedup

/-!
# C201: how long a list is kept
-/

namespace Verif.Memo

open Verif.MemoSpec

set_option linter.unusedSectionVars false

variable {κ ν : Type} [DecidableEq κ]

/-- The keys of an `lru_cache` with `M` places after a call with key `x`. -/
def touch (M : ℕ) (L : List κ) (x : κ) : List κ :=
  if x ∈ L then x :: L.filter (fun y => y ≠ x) else x :: L.take (M - 1)

theorem keys_refresh (c : List (κ × ν)) (k : κ) (v : ν) :
    Dict.keys (refresh c k v) = k :: (Dict.keys c).filter (fun y => y ≠ k) := by
  unfold refresh Dict.keys Dict.erase
  rw [List.map_cons, List.filter_map]
  rfl

theorem keys_remember (M : ℕ) (c : List (κ × ν)) (k : κ) (v : ν) :
    Dict.keys (remember M c k v) = k :: (Dict.keys c).take (M - 1) := by
  unfold remember Dict.keys
  rw [List.map_cons, List.map_take]

theorem touch_nodup {M : ℕ} {L : List κ} (h : L.Nodup) (x : κ) : (touch M L x).Nodup := by
  unfold touch
  split
  · exact List.nodup_cons.2 ⟨by simp, h.filter _⟩
  next hx =>
    exact List.nodup_cons.2 ⟨fun hm => hx (List.mem_of_mem_take hm),
      h.sublist (List.take_sublist _ _)⟩

theorem touch_length {M : ℕ} (hM : 1 ≤ M) {L : List κ} (hl : L.length ≤ M) (x : κ) : (touch M L x).length ≤ M := by
  unfold touch
  split
  next hx =>
    have : (L.filter (fun y => y ≠ x)).length < L.length :=
      List.length_filter_lt_length_iff_exists.2 ⟨x, hx, by simp⟩
    rw [List.length_cons]
    omega
  · simp only [List.length_cons, List.length_take]; omega

/-- The keys `L` of a cache in which `k` was used before exactly the keys in `D`. -/
def Since (M : ℕ) (L : List κ) (D : Finset κ) (k : κ) : Prop :=
  (D.card < M ∧ ∃ l1 l2, L = l1 ++ k :: l2 ∧ ∀ y, y ∈ l1 ↔ y ∈ D) ∨ (M ≤ D.card ∧ k ∉ L)

theorem Since.touch {M : ℕ} (hM : 1 ≤ M) {L : List κ} {D : Finset κ} {k : κ} (h : Since M L D k)
    (hn : L.Nodup) (hl : L.length ≤ M) {x : κ} (hx : x ≠ k) :
    Since M (touch M L x) (insert x D) k := by
  rcases h with ⟨hc, l1, l2, rfl, hD⟩ | ⟨hc, hk⟩
  · have hn' : (Memo.touch M (l1 ++ k :: l2) x).Nodup := touch_nodup hn x
    have hl' := touch_length hM hl x
    have hlen : ∀ l : List κ, l.Nodup → ∀ E : Finset κ, (∀ y, y ∈ l ↔ y ∈ E) →
        l.length = E.card := by
      intro l hl E hE
      rw [← List.toFinset_card_of_nodup hl]
      congr 1
      ext y; simp [hE]
    have hl1 : l1.length = D.card := hlen l1 (List.nodup_append.1 hn).1 D hD
    by_cases hm : x ∈ l1 ++ k :: l2
    · have e : Memo.touch M (l1 ++ k :: l2) x =
          (x :: l1.filter (fun y => y ≠ x)) ++ k :: l2.filter (fun y => y ≠ x) := by
        unfold Memo.touch
        rw [if_pos hm, List.filter_append, List.filter_cons_of_pos (by simp [hx.symm])]
        rfl
      rw [e] at hn' hl'
      have hD' : ∀ y, y ∈ x :: l1.filter (fun y => y ≠ x) ↔ y ∈ insert x D := by
        intro y
        simp only [List.mem_cons, List.mem_filter, decide_eq_true_eq, Finset.mem_insert, hD]
        tauto
      left
      refine ⟨?_, _, _, e, hD'⟩
      rw [← hlen _ (List.nodup_append.1 hn').1 _ hD']
      simp only [List.length_append, List.length_cons] at hl' ⊢
      omega
    · have hxD : x ∉ D := fun h => hm (List.mem_append_left _ ((hD x).2 h))
      have hcard : (insert x D).card = D.card + 1 := Finset.card_insert_of_notMem hxD
      have e : Memo.touch M (l1 ++ k :: l2) x = x :: (l1 ++ k :: l2).take (M - 1) := by
        unfold Memo.touch
        rw [if_neg hm]
      rw [List.take_append] at e
      rcases Nat.lt_or_ge (D.card + 1) M with hlt | hge
      · left
        have e2 : M - 1 - l1.length = (M - 1 - l1.length - 1) + 1 := by omega
        rw [List.take_of_length_le (by omega), e2, List.take_succ_cons] at e
        refine ⟨by omega, x :: l1, _, e, fun y => ?_⟩
        simp only [List.mem_cons, Finset.mem_insert, hD]
      · right
        have e2 : M - 1 - l1.length = 0 := by omega
        rw [e2, List.take_zero, List.append_nil] at e
        refine ⟨by omega, ?_⟩
        rw [e]
        simp only [List.mem_cons, not_or]
        refine ⟨hx.symm, fun h => ?_⟩
        have := (List.nodup_append.1 hn).2.2 k (List.mem_of_mem_take h) k (by simp)
        exact this rfl
  · right
    refine ⟨hc.trans (Finset.card_le_card (Finset.subset_insert _ _)), ?_⟩
    unfold Memo.touch
    split
    · simp only [List.mem_cons, List.mem_filter, not_or, not_and]
      exact ⟨hx.symm, fun h => absurd h hk⟩
    · simp only [List.mem_cons, not_or]
      exact ⟨hx.symm, fun h => hk (List.mem_of_mem_take h)⟩

/-! ## The caches of a process -/

/-- The caches are caches: no more entries than places, one for every key, and the lists exist. -/
structure CacheInv (M : ℕ) (c : Caches) : Prop where
  gramsNodup : (Dict.keys c.grams).Nodup
  gramsLen : (Dict.keys c.grams).length ≤ M
  numsNodup : (Dict.keys c.nums).Nodup
  numsLen : (Dict.keys c.nums).length ≤ M
  exist : ∀ e ∈ c.grams, e.2 < c.heap.length

theorem keys_callGrams_ok {M : ℕ} {c : Caches} {w : List Char} {n : Num} {a : ℕ}
    (h : (callGrams M c w n).1 = .ok a) :
    Dict.keys (callGrams M c w n).2.grams = touch M (Dict.keys c.grams) (w, n.val) := by
  unfold callGrams at h ⊢
  split
  next b hb =>
    have hk : (w, n.val) ∈ Dict.keys c.grams :=
      List.mem_map_of_mem (f := Prod.fst) (Dict.mem_of_get? hb)
    simp only [keys_refresh, touch, if_pos hk]
  next hb =>
    rw [hb] at h
    simp only at h
    split
    next e he => rw [he] at h; cases h
    next l hl =>
      have hk := Dict.get?_eq_none.1 hb
      simp only [keys_remember, touch, if_neg hk]

theorem callGrams_inv {M : ℕ} (hM : 1 ≤ M) {c : Caches} (hc : CacheInv M c) (w : List Char)
    (n : Num) : CacheInv M (callGrams M c w n).2 := by
  rcases h : (callGrams M c w n).1 with e | a
  · have : (callGrams M c w n).2 = c := by
      unfold callGrams at h ⊢
      split
      next b hb => rw [hb] at h; cases h
      next hb =>
        rw [hb] at h
        simp only at h
        split
        · rfl
        next l hl => rw [hl] at h; cases h
    rw [this]; exact hc
  · have hk := keys_callGrams_ok h
    refine ⟨hk ▸ touch_nodup hc.gramsNodup _, hk ▸ touch_length hM hc.gramsLen _, ?_, ?_, ?_⟩
    · rw [callGrams_nums]; exact hc.numsNodup
    · rw [callGrams_nums]; exact hc.numsLen
    · unfold callGrams
      split
      next b hb => exact fun e he => hc.exist e (mem_refresh (Dict.mem_of_get? hb) he)
      · split
        · exact hc.exist
        · intro e he
          simp only [List.length_append, List.length_singleton]
          rcases mem_remember he with rfl | he
          · simp
          · exact (hc.exist e he).trans (by omega)

theorem callNums_inv {M : ℕ} (hM : 1 ≤ M) {c : Caches} (hc : CacheInv M c) (l : ℕ) (n : Num) :
    CacheInv M (callNums M c l n).2 := by
  have hk : Dict.keys (callNums M c l n).2.nums = touch M (Dict.keys c.nums) (l, n.val) := by
    unfold callNums
    split
    next b hb =>
      have hk : (l, n.val) ∈ Dict.keys c.nums :=
        List.mem_map_of_mem (f := Prod.fst) (Dict.mem_of_get? hb)
      simp only [keys_refresh, touch, if_pos hk]
    next hb => simp only [keys_remember, touch, if_neg (Dict.get?_eq_none.1 hb)]
  have hg : (callNums M c l n).2.grams = c.grams ∧ (callNums M c l n).2.heap = c.heap := by
    unfold callNums; split <;> exact ⟨rfl, rfl⟩
  refine ⟨hg.1 ▸ hc.gramsNodup, hg.1 ▸ hc.gramsLen, hk ▸ touch_nodup hc.numsNodup _,
    hk ▸ touch_length hM hc.numsLen _, ?_⟩
  rw [hg.1, hg.2]; exact hc.exist

theorem exec_inv {α : Type} {M : ℕ} (hM : 1 ≤ M) (p : Prog α) {c : Caches} (hc : CacheInv M c) :
    CacheInv M (p.exec M c).2 := by
  induction p generalizing c with
  | ret a => exact hc
  | grams w n k ih =>
    simp only [Prog.exec]
    have := callGrams_inv hM hc w n
    rcases h : callGrams M c w n with ⟨r, c'⟩
    rw [h] at this
    cases r <;> exact ih _ this
  | nums l n k ih => exact ih _ (callNums_inv hM hc l n)

theorem step_inv {S : Type} [Ring S] [LinearOrder S] {M : ℕ} (hM : 1 ≤ M) (agg : List ℚ → S)
    (cf : List Char → List Char) {p : Proc} (hc : CacheInv M p.caches) (op : Op) :
    CacheInv M (p.step M agg cf op).1.caches := by
  cases op with
  | grams w n =>
    have := callGrams_inv hM hc w n
    simp only [Proc.step]
    rcases h : callGrams M p.caches w n with ⟨r, c'⟩
    rw [h] at this
    cases r <;> exact this
  | write a l =>
    refine ⟨hc.gramsNodup, hc.gramsLen, hc.numsNodup, hc.numsLen, ?_⟩
    simp only [Proc.step, List.length_set]
    exact hc.exist
  | nums l n => exact callNums_inv hM hc l n
  | clearGrams => exact ⟨by simp [Proc.step], by simp [Proc.step], hc.numsNodup, hc.numsLen,
      by simp [Proc.step]⟩
  | clearNums => exact ⟨hc.gramsNodup, hc.gramsLen, by simp [Proc.step], by simp [Proc.step],
      hc.exist⟩
  | newList n cs f => simp only [Proc.step]; split <;> exact hc
  | add i word => simp only [Proc.step]; split; exacts [hc, exec_inv hM _ hc]
  | lookup i word topK nm => simp only [Proc.step]; split; exacts [hc, exec_inv hM _ hc]
  | lookupV5 i word topK inv nm => simp only [Proc.step]; split; exacts [hc, exec_inv hM _ hc]
  | newV5b n cs f => simp only [Proc.step]; split <;> exact hc
  | addV5b i word => simp only [Proc.step]; split; exacts [hc, exec_inv hM _ hc]
  | lookupV5b i word topK nm => simp only [Proc.step]; split; exacts [hc, exec_inv hM _ hc]
  | newV3 ns cs => exact hc
  | addV3 i word => simp only [Proc.step]; split; exacts [hc, exec_inv hM _ hc]
  | lookupV3 i word topK => simp only [Proc.step]; split; exacts [hc, exec_inv hM _ hc]

theorem run_inv {S : Type} [Ring S] [LinearOrder S] {M : ℕ} (hM : 1 ≤ M) (agg : List ℚ → S)
    (cf : List Char → List Char) (ops : List Op) {p : Proc} (hc : CacheInv M p.caches) :
    CacheInv M (p.run M agg cf ops).1.caches := by
  induction ops generalizing p with
  | nil => exact hc
  | cons op ops ih => exact ih (step_inv hM agg cf hc op)

theorem start_inv (M : ℕ) : CacheInv M Proc.start.caches := by
  constructor <;> simp [Proc.start, Caches.empty]

/-! ## Asking again -/

/-- `get_n_grams` for a list of words and sizes: the caches afterwards. -/
def askAll (M : ℕ) (c : Caches) (ks : List (List Char × ℤ)) : Caches :=
  ks.foldl (fun c k => (callGrams M c k.1 (.int k.2)).2) c

theorem get?_refresh_ne {c : List (κ × ν)} {k x : κ} {v : ν} (hx : x ≠ k) :
    Dict.get? (refresh c x v) k = Dict.get? c k := by
  unfold refresh
  rw [Dict.get?_cons, if_neg hx]
  unfold Dict.erase
  induction c with
  | nil => rfl
  | cons e c ih =>
    obtain ⟨k', v'⟩ := e
    by_cases h : k' = x
    · rw [List.filter_cons_of_neg (by simp [h]), ih, Dict.get?_cons, if_neg (h ▸ hx)]
    · rw [List.filter_cons_of_pos (by simp [h]), Dict.get?_cons, Dict.get?_cons, ih]

theorem get?_take {c : List (κ × ν)} {k : κ} {m : ℕ} (h : k ∈ Dict.keys (c.take m)) :
    Dict.get? (c.take m) k = Dict.get? c k := by
  induction c generalizing m with
  | nil => simp
  | cons e c ih =>
    obtain ⟨k', v'⟩ := e
    cases m with
    | zero => simp at h
    | succ m =>
      rw [List.take_succ_cons] at h ⊢
      rw [Dict.get?_cons, Dict.get?_cons]
      split
      · rfl
      next hk =>
        rw [Dict.keys_cons, List.mem_cons] at h
        exact ih (h.resolve_left fun e => hk e.symm)

theorem get?_callGrams {M : ℕ} {c : Caches} {w : List Char} {n : Num} {k : List Char × ℚ}
    (hx : (w, n.val) ≠ k) (h : k ∈ Dict.keys (callGrams M c w n).2.grams) :
    Dict.get? (callGrams M c w n).2.grams k = Dict.get? c.grams k := by
  unfold callGrams at h ⊢
  split
  · exact get?_refresh_ne hx
  next hb =>
    rw [hb] at h
    simp only at h
    split
    · rfl
    next l hl =>
      rw [hl] at h
      simp only [remember, Dict.keys_cons, List.mem_cons] at h
      simp only [remember, Dict.get?_cons, if_neg hx]
      exact get?_take (h.resolve_left fun e => hx e.symm)

theorem heap_callGrams (M : ℕ) (c : Caches) (w : List Char) (n : Num) :
    c.heap.length ≤ (callGrams M c w n).2.heap.length := by
  unfold callGrams
  split
  · exact le_rfl
  · split
    · exact le_rfl
    · simp

theorem callGrams_int_ok (M : ℕ) (c : Caches) (w : List Char) (z : ℤ) :
    ∃ a, (callGrams M c w (.int z)).1 = .ok a := by
  unfold callGrams
  split
  · exact ⟨_, rfl⟩
  · exact ⟨_, rfl⟩

/-- Where `k` is after the calls `ks`. -/
theorem askAll_since {M : ℕ} (hM : 1 ≤ M) (k : List Char × ℚ) (a : ℕ)
    (ks : List (List Char × ℤ)) (hk : ∀ x ∈ ks, (x.1, (x.2 : ℚ)) ≠ k) {c : Caches}
    {D : Finset (List Char × ℚ)} (hc : CacheInv M c) (hs : Since M (Dict.keys c.grams) D k)
    (ha : k ∈ Dict.keys c.grams → Dict.get? c.grams k = some a) (hh : a < c.heap.length) :
    CacheInv M (askAll M c ks) ∧
      Since M (Dict.keys (askAll M c ks).grams)
        ((ks.map (fun x => (x.1, (x.2 : ℚ)))).toFinset ∪ D) k ∧
      (k ∈ Dict.keys (askAll M c ks).grams → Dict.get? (askAll M c ks).grams k = some a) ∧
      a < (askAll M c ks).heap.length := by
  induction ks generalizing c D with
  | nil => simpa [askAll] using ⟨hc, hs, ha, hh⟩
  | cons x ks ih =>
    have hx := hk x (by simp)
    obtain ⟨b, hb⟩ := callGrams_int_ok M c x.1 x.2
    have hkeys := keys_callGrams_ok hb
    have hs' := hs.touch hM hc.gramsNodup hc.gramsLen hx
    have hs2 : Since M (Dict.keys (callGrams M c x.1 (.int x.2)).2.grams)
        (insert (x.1, (x.2 : ℚ)) D) k := by rw [hkeys]; exact hs'
    have hstay : k ∈ Dict.keys (callGrams M c x.1 (.int x.2)).2.grams →
        k ∈ Dict.keys c.grams := by
      rw [hkeys]
      unfold Memo.touch
      split
      · intro h
        rcases List.mem_cons.1 h with h | h
        · exact absurd h.symm hx
        · exact List.mem_of_mem_filter h
      · intro h
        rcases List.mem_cons.1 h with h | h
        · exact absurd h.symm hx
        · exact List.mem_of_mem_take h
    have := ih (fun y hy => hk y (List.mem_cons_of_mem _ hy)) (callGrams_inv hM hc x.1 (.int x.2))
      hs2 (fun h => by rw [get?_callGrams hx h]; exact ha (hstay h))
      (hh.trans_le (heap_callGrams M c _ _))
    rw [List.map_cons, List.toFinset_cons, Finset.insert_union, ← Finset.union_insert]
    exact this

end Verif.Memo
