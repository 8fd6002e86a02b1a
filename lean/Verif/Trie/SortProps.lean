import Verif.Trie.Sort
import Verif.Trie.MapProps

/-!
# Sorting and slicing a `Trie`: properties C57 and C58
-/

namespace Verif
namespace Trie

open TrieSpec

variable {κ τ ν S : Type}

/-- **C57.** After any history, `sort_keys` changes no answer except the order of iteration: any
further history is answered as by the mapping that the unsorted trie stood for. -/
theorem C57_sort_keys_same_map [DecidableEq τ] [LinearOrder S] (tok : κ → List τ)
    (detok : List τ → κ) (hrt : ∀ k, tok (detok (tok k)) = tok k) (key : τ → S) (asc : Bool)
    (cs cs' : List (Call κ ν)) (hc : ∀ c ∈ cs ++ cs', ∀ k ∈ c.keys, tok k ≠ []) :
    Trace tok detok (afterCalls tok detok new cs : Trie τ ν).root.get cs'
      (runCalls tok detok (sortKeys key asc (afterCalls tok detok new cs)) cs') := by
  have hrel : ∀ (cs : List (Call κ ν)) (t : Trie τ ν) (m : Map τ ν), Rel tok t m →
      (∀ c ∈ cs, ∀ k ∈ c.keys, tok k ≠ []) → ∃ m', Rel tok (afterCalls tok detok t cs) m' := by
    intro cs
    induction cs with
    | nil => intro t m h _; exact ⟨m, h⟩
    | cons c cs ih =>
      intro t m h hc
      obtain ⟨m', -, hr⟩ := step_allowed tok detok hrt h c (hc c (by simp))
      exact ih _ m' hr (fun c' hc' => hc c' (by simp [hc']))
  obtain ⟨m, hm⟩ := hrel cs new (fun _ => none)
    ⟨inv_new, by funext p; exact Node.get_empty p, by simp⟩ (fun c h => hc c (by simp [h]))
  refine runCalls_trace tok detok hrt cs' (fun c h => hc c (by simp [h])) ⟨?_, ?_, ?_⟩
  · exact inv_sortKeys key asc hm.inv
  · funext p
    exact Node.sort_get key asc hm.inv.wf p
  · rw [hm.get]
    exact hm.keys

/-- **C57.** After `sort_keys()` the items come in strictly increasing lexicographic order of
their token sequences, for any token order `key` that tells tokens apart. -/
theorem C57_sort_keys_sorted [DecidableEq τ] [LinearOrder S] (tok : κ → List τ)
    (detok : List τ → κ) (key : τ → S) (hinj : Function.Injective key) (cs : List (Call κ ν)) :
    ∃ l : List (List τ × ν),
      items detok (sortKeys key true (afterCalls tok detok new cs)) =
        l.map (fun x => (detok x.1, x.2)) ∧
      (∀ p v, (p, v) ∈ l ↔
        p ≠ [] ∧ (afterCalls tok detok new cs : Trie τ ν).root.get p = some v) ∧
      l.Pairwise (fun a b => List.Lex (fun x y => key x < key y) a.1 b.1) := by
  have h := inv_afterCalls tok detok cs (inv_new (τ := τ) (ν := ν))
  refine ⟨_, rfl, ?_, Node.items_lex (Node.sort_wf key true h.wf) (Node.sort_keySorted hinj h.wf)⟩
  intro p v
  simp only [sortKeys]
  rw [Node.mem_items (Node.sort_wf key true h.wf), Node.sort_get _ _ h.wf]

/-- Evaluates calls on concrete tries. -/
local macro "trie_eval" : tactic =>
  `(tactic| simp [runCalls, afterCalls, step, setItem, setDefault, pop, popFirst, delItem, getItem,
    getD, contains, len, update, items, Node.items, itemsLoop, Node.put, Node.remove, Node.get,
    Node.walk, Node.val, Node.kids, new, Node.empty, Dict.set, Dict.get?, Dict.erase, sortKeys,
    Node.sort, sortKids, sortDesc, List.insertionSort, List.orderedInsert, getSlice, itemSlice,
    delSlice, popAll])

example : items id (sortKeys id true (afterCalls (fun w : List Nat => w) id
    (new : Trie Nat String) [.set [2] "a", .set [1, 2] "b", .set [3] "c", .set [1] "d"]))
    = [([1], "d"), ([1, 2], "b"), ([2], "a"), ([3], "c")] := by
  trie_eval

/-- `sort_keys(ascending=False)` is not the reverse order: a key still precedes its extensions. -/
theorem C57_descending_not_reversed :
    items id (sortKeys id false (afterCalls (fun w : List Nat => w) id
      (new : Trie Nat String) [.set [2] "a", .set [1, 2] "b", .set [1] "d"]))
    = [([2], "a"), ([1], "d"), ([1, 2], "b")] := by
  trie_eval

theorem items_map_id {t : Trie τ ν} : items (id : List τ → List τ) t = t.root.items := by
  simp [items]

/-- **C58.** With whole texts as keys (the default tokenizer), after `sort_keys` by the plain token
order `trie[start:stop]` gives exactly the values of the keys from `start` up to but not including
`stop`, in increasing order of the keys. -/
theorem C58_slice_sorted [LinearOrder τ] (cs : List (Call (List τ) ν)) (s e : List τ) :
    ∃ l : List (List τ × ν),
      getSlice id (sortKeys id true (afterCalls (fun w => w) id new cs)) (some s) (some e) =
        .ok (l.map Prod.snd) ∧
      l.Pairwise (fun a b => a.1 < b.1) ∧
      (∀ p v, (p, v) ∈ l ↔ p ≠ [] ∧ s ≤ p ∧ p < e ∧
        (afterCalls (fun w => w) id new cs : Trie τ ν).root.get p = some v) := by
  have h := inv_afterCalls (fun w : List τ => w) id cs (inv_new (τ := τ) (ν := ν))
  have hwf := Node.sort_wf (id : τ → τ) true h.wf
  have hl := Node.items_lex hwf (Node.sort_keySorted Function.injective_id h.wf)
  have hl' : (items (id : List τ → List τ) (sortKeys id true (afterCalls (fun w => w) id new cs) :
      Trie τ ν)).Pairwise (fun a b => a.1 < b.1) := by
    rw [items_map_id]
    exact hl
  refine ⟨_, ?_, hl'.filter (fun p => decide (s ≤ p.1 ∧ p.1 < e)), ?_⟩
  · unfold getSlice
    simp only [itemSlice_sorted s e _ hl']
    congr!
  · intro p v
    rw [List.mem_filter, items_map_id]
    simp only [sortKeys]
    rw [Node.mem_items hwf, Node.sort_get _ _ h.wf]
    simp only [decide_eq_true_eq]
    tauto

example : getSlice id (sortKeys id true (afterCalls (fun w : List Nat => w) id
    (new : Trie Nat String) [.set [2] "a", .set [1, 2] "b", .set [3] "c", .set [1] "d"]))
    (some [1, 1]) (some [3]) = .ok ["b", "a"] := by
  trie_eval
  decide

/-- Removing a list of stored keys one by one. -/
theorem popAll_ok [DecidableEq τ] (ks : List (List τ)) (hne : ∀ k ∈ ks, k ≠ []) (hnd : ks.Nodup)
    {t : Trie τ ν} (hin : ∀ k ∈ ks, ∃ v, t.root.get k = some v) :
    ∃ t', popAll (fun w => w) t ks = .ok t' ∧
      ∀ q, t'.root.get q = if q ∈ ks then none else t.root.get q := by
  induction ks generalizing t with
  | nil => exact ⟨t, rfl, by simp⟩
  | cons k ks ih =>
    rw [List.nodup_cons] at hnd
    obtain ⟨v, hv⟩ := hin k (by simp)
    rcases pop_cases (fun w => w) t k (hne k (by simp)) with ⟨t1, w, h1, h2, h3⟩ | ⟨_, h2⟩
    · obtain ⟨t', h4, h5⟩ := ih (fun x hx => hne x (by simp [hx])) hnd.2 (t := t1) (by
        intro x hx
        obtain ⟨u, hu⟩ := hin x (by simp [hx])
        refine ⟨u, ?_⟩
        rw [h3 x]
        have : x ≠ k := by rintro rfl; exact hnd.1 hx
        simp [this, hu])
      refine ⟨t', by simp only [popAll, h1, h4], ?_⟩
      intro q
      rw [h5 q, h3 q]
      by_cases hq : q = k <;> by_cases hm : q ∈ ks <;> simp [hq, hm]
    · rw [hv] at h2; simp at h2

/-- **C58.** Under the same conditions `del trie[start:stop]` raises nothing and removes exactly the
keys from `start` up to but not including `stop`. -/
theorem C58_del_slice_sorted [LinearOrder τ] (cs : List (Call (List τ) ν)) (s e : List τ) :
    ∃ t', delSlice (fun w => w) id (sortKeys id true (afterCalls (fun w => w) id new cs))
        (some s) (some e) = .ok t' ∧
      ∀ p, p ≠ [] → t'.root.get p = if s ≤ p ∧ p < e then none
        else (afterCalls (fun w => w) id new cs : Trie τ ν).root.get p := by
  have h := inv_afterCalls (fun w : List τ => w) id cs (inv_new (τ := τ) (ν := ν))
  generalize (afterCalls (fun w => w) id new cs : Trie τ ν) = t at h
  have hwf := Node.sort_wf (id : τ → τ) true h.wf
  have hl := Node.items_lex hwf (Node.sort_keySorted Function.injective_id h.wf)
  have hmem := Node.mem_items hwf
  have hl' : (items (id : List τ → List τ) (sortKeys id true t : Trie τ ν)).Pairwise
      (fun a b => a.1 < b.1) := by
    rw [items_map_id]
    exact hl
  have hnd : (((items (id : List τ → List τ) (sortKeys id true t)).filter
      (fun p => decide (s ≤ p.1 ∧ p.1 < e))).map Prod.fst).Nodup := by
    refine List.Nodup.sublist (List.Sublist.map _ List.filter_sublist) ?_
    rw [items_map_id]
    exact Node.nodup_items hwf
  have hks : ∀ k, k ∈ ((items (id : List τ → List τ) (sortKeys id true t)).filter
      (fun p => decide (s ≤ p.1 ∧ p.1 < e))).map Prod.fst ↔
      k ≠ [] ∧ (∃ v, t.root.get k = some v) ∧ s ≤ k ∧ k < e := by
    intro k
    rw [List.mem_map, items_map_id]
    constructor
    · rintro ⟨⟨k, v⟩, hm, rfl⟩
      rw [List.mem_filter] at hm
      have h1 := (hmem k v).mp hm.1
      rw [Node.sort_get _ _ h.wf] at h1
      have h2 := of_decide_eq_true hm.2
      exact ⟨h1.1, ⟨v, h1.2⟩, h2.1, h2.2⟩
    · rintro ⟨h1, ⟨v, h2⟩, h3, h4⟩
      refine ⟨(k, v), List.mem_filter.mpr ⟨(hmem k v).mpr ⟨h1, ?_⟩, by simp [h3, h4]⟩, rfl⟩
      rw [Node.sort_get _ _ h.wf]
      exact h2
  obtain ⟨t', h1, h2⟩ := popAll_ok _ (fun k hk => ((hks k).mp hk).1) hnd (t := sortKeys id true t) (by
    intro k hk
    obtain ⟨-, ⟨v, hv⟩, -⟩ := (hks k).mp hk
    refine ⟨v, ?_⟩
    simp only [sortKeys]
    rw [Node.sort_get _ _ h.wf]
    exact hv)
  refine ⟨t', ?_, ?_⟩
  · unfold delSlice
    simp only [itemSlice_sorted s e _ hl']
    convert h1
  · intro p hp
    have hsg : (sortKeys id true t).root.get p = t.root.get p := Node.sort_get _ _ h.wf p
    rw [h2 p, hsg]
    by_cases hr : s ≤ p ∧ p < e
    · rw [if_pos hr]
      cases hg : t.root.get p with
      | none => simp
      | some v => rw [if_pos ((hks p).mpr ⟨hp, ⟨v, hg⟩, hr⟩)]
    · rw [if_neg (fun hm => hr ((hks p).mp hm).2.2), if_neg hr]

/-- Without sorting first, a slice loses keys: the loop stops at the first key that is not below
`stop`, wherever the others are. -/
theorem C58_slice_unsorted_loses :
    ∃ t : Trie Nat String,
      t = afterCalls (fun w : List Nat => w) id new [.set [1] "a", .set [5] "b"] ∧
      contains (fun w => w) t [1] = true ∧
      getSlice id t (some [1]) (some [3]) = .ok [] := by
  refine ⟨_, rfl, ?_, ?_⟩ <;> trie_eval
  decide

/-- With the default `sort_keys()`, which orders tokens by `(casefold, token)`, slices still lose
keys, as they compare keys by code point. Tokens: 66 `B`, 97 `a`; the slice `'A':'Z'` misses
`B`. -/
theorem C58_slice_casefold_loses :
    ∃ (key : Nat → Nat) (t : Trie Nat String),
      Function.Injective key ∧ key 97 < key 66 ∧
      t = sortKeys key true
        (afterCalls (fun w : List Nat => w) id new [.set [66] "x", .set [97] "y"]) ∧
      contains (fun w => w) t [66] = true ∧
      getSlice id t (some [65]) (some [90]) = .ok [] := by
  refine ⟨fun n => if n = 66 then 97 else if n = 97 then 66 else n, _, ?_, by simp, rfl, ?_, ?_⟩
  · intro a b hab
    simp only at hab
    split at hab <;> split at hab <;> try split at hab
    all_goals first | omega | (split at hab <;> omega)
  · trie_eval
  · trie_eval
    decide

/-- **C58.** A slice without an upper bound raises `TypeError` on any trie that yields an item. -/
theorem C58_open_stop_raises [LinearOrder κ] (detok : List τ → κ) (t : Trie τ ν)
    (start : Option κ) (hne : items detok t ≠ []) :
    getSlice detok t start none = .error .typeError := by
  unfold getSlice
  cases hi : items detok t with
  | nil => exact absurd hi hne
  | cons p l => rfl

/-- **C58.** A slice without a lower bound raises `TypeError` unless it is empty because the first
key is not below the upper bound. -/
theorem C58_open_start_raises [LinearOrder κ] (detok : List τ → κ) (t : Trie τ ν) (e k : κ) (v : ν)
    (l : List (κ × ν)) (hi : items detok t = (k, v) :: l) :
    getSlice detok t none (some e) = if e ≤ k then .ok [] else .error .typeError := by
  unfold getSlice
  rw [hi, itemSlice]
  by_cases h : e ≤ k <;> simp [h]

example : items id (afterCalls (fun w : List Nat => w) id (new : Trie Nat String) [.set [2] "a"])
    = ([2], "a") :: [] := by
  trie_eval

end Trie
end Verif
