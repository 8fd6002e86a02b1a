import Verif.Trie.LevProps

/-!
# C255: `levenshtein_lookup` with any cost of transposition

`Trie.levenshtein_lookup` (experiments/find_replace_trie.py, lines 607–690) abandons a path when no
entry of its row is within the bound. C63 needs transpositions that are not too cheap; this is what
is yielded in general.
-/

namespace Verif
namespace Trie

open EditSpec TrieSpec

variable {τ ν : Type} [DecidableEq τ]

/-- Some entry of the row of `q` is within the bound. -/
def RowWithin (c : Costs ℚ) (word : List τ) (k : ℚ) (q : List τ) : Prop :=
  ∃ j, j < word.length + 1 ∧ cell c word q j ≤ k

theorem rows_cons {c : Costs ℚ} {word : List τ} {k : ℚ} {path p : List τ} {key : τ}
    (hp : path ++ [key] <+: p) :
    (∀ s, s ≠ [] → path ++ s <+: p → RowWithin c word k (path ++ s)) ↔
      RowWithin c word k (path ++ [key]) ∧
      ∀ s, s ≠ [] → path ++ [key] ++ s <+: p → RowWithin c word k (path ++ [key] ++ s) := by
  constructor
  · intro h
    refine ⟨h [key] (by simp) hp, fun s _ hs => ?_⟩
    rw [List.append_assoc] at hs ⊢
    exact h _ (by simp) hs
  · rintro ⟨h1, h2⟩ s hs hsp
    obtain ⟨a, s, rfl⟩ := List.exists_cons_of_ne_nil hs
    obtain ⟨r, rfl⟩ := hp
    have ha : a = key ∧ s <+: r := by
      rw [List.append_assoc, List.prefix_append_right_inj] at hsp
      simpa using hsp
    obtain ⟨rfl, hr⟩ := ha
    by_cases h : s = []
    · subst h; exact h1
    · have e : path ++ a :: s = path ++ [a] ++ s := by simp
      rw [e]
      refine h2 s h ?_
      rw [List.prefix_append_right_inj]
      exact hr

theorem mem_foundP (c : Costs ℚ) (word : List τ) (k : ℚ) (path : List τ)
    (f : List (τ × Node τ ν)) (p : List τ) :
    p ∈ foundP c word k path f ↔ p ∈ (frameItems path f).map Prod.fst ∧
      cell c word p word.length ≤ k ∧
      ∀ s, s ≠ [] → path ++ s <+: p → RowWithin c word k (path ++ s) := by
  induction path, f using frameItems.induct with
  | case1 path => simp [foundP, frameItems]
  | case2 path key ch rest ih1 ih2 =>
    rw [foundP, frameItems, List.mem_append, ih2, List.map_append, List.map_append,
      List.mem_append, List.mem_append]
    have hbelow : p ∈ (frameItems (path ++ [key]) ch.kids.reverse).map Prod.fst →
        path ++ [key] <+: p := by
      intro h
      obtain ⟨x, hx, rfl⟩ := List.mem_map.mp h
      obtain ⟨q, hq⟩ := frameItems_prefix _ _ x hx
      exact ⟨q, hq.symm⟩
    have hself : p ∈ List.map Prod.fst (match ch.val with
        | none => []
        | some v => [(path ++ [key], v)]) ↔ ch.val.isSome ∧ p = path ++ [key] := by
      rcases Option.eq_none_or_eq_some ch.val with hv | ⟨v, hv⟩ <;> simp [hv]
    refine Iff.trans ?_ (and_congr_left' (or_congr_left hself)).symm
    have hhead : p ∈ (if cell c word (path ++ [key]) word.length ≤ k ∧ ch.val.isSome then
        [path ++ [key]] else []) ↔
        (ch.val.isSome ∧ p = path ++ [key]) ∧ cell c word p word.length ≤ k := by
      split
      · rename_i h
        rw [List.mem_singleton]
        exact ⟨fun e => ⟨⟨h.2, e⟩, e ▸ h.1⟩, fun e => e.1.2⟩
      · rename_i h
        simp only [List.not_mem_nil, false_iff]
        rintro ⟨⟨h1, rfl⟩, h2⟩
        exact h ⟨h2, h1⟩
    have hmid : p ∈ (if ∃ j, j < word.length + 1 ∧ cell c word (path ++ [key]) j ≤ k then
        (if cell c word (path ++ [key]) word.length ≤ k ∧ ch.val.isSome then [path ++ [key]]
          else []) ++ foundP c word k (path ++ [key]) ch.kids.reverse else []) ↔
        ((ch.val.isSome ∧ p = path ++ [key]) ∨
          p ∈ (frameItems (path ++ [key]) ch.kids.reverse).map Prod.fst) ∧
        cell c word p word.length ≤ k ∧
        ∀ s, s ≠ [] → path ++ s <+: p → RowWithin c word k (path ++ s) := by
      split
      · rename_i hrow
        rw [List.mem_append, hhead, ih1]
        constructor
        · rintro (⟨⟨h1, rfl⟩, h2⟩ | ⟨h1, h2, h3⟩)
          · refine ⟨.inl ⟨h1, rfl⟩, h2, (rows_cons (List.prefix_refl _)).mpr ⟨hrow, ?_⟩⟩
            intro s hs hp
            have h4 := hp.length_le
            have h5 := List.length_pos_of_ne_nil hs
            rw [List.length_append] at h4
            omega
          · exact ⟨.inr h1, h2, (rows_cons (hbelow h1)).mpr ⟨hrow, h3⟩⟩
        · rintro ⟨h1 | h1, h2, h3⟩
          · exact .inl ⟨h1, h2⟩
          · exact .inr ⟨h1, h2, ((rows_cons (hbelow h1)).mp h3).2⟩
      · rename_i hrow
        simp only [List.not_mem_nil, false_iff]
        rintro ⟨h1 | h1, h2, h3⟩
        · obtain ⟨_, rfl⟩ := h1
          exact hrow ((rows_cons (List.prefix_refl _)).mp h3).1
        · exact hrow ((rows_cons (hbelow h1)).mp h3).1
    rw [hmid, ← or_and_right, or_assoc]

/-- **C255.** On a trie reached by any calls and for any non-negative costs, `levenshtein_lookup`
yields, each once and in the order of `keys()`, exactly the stored non-empty keys within `distance`
of the word all of whose non-empty beginnings are within `distance` of some beginning of the
word. -/
theorem C255_levenshtein_lookup_yields (cs : List (Call (List τ) ν)) (word : List τ)
    (hw : word ≠ []) (k ins del sub swap : ℚ) (hk : 0 ≤ k) (hi : 0 ≤ ins) (hd : 0 ≤ del)
    (hsu : 0 ≤ sub) (hsw : 0 ≤ swap) :
    ∃ l, levenshteinLookup id true (afterCalls (fun w => w) id new cs) word k ins del sub swap =
        .ok l ∧
      l.Sublist ((items id (afterCalls (fun w => w) id new cs : Trie τ ν)).map Prod.fst) ∧
      l.Nodup ∧
      ∀ p, p ∈ l ↔ p ≠ [] ∧ (afterCalls (fun w => w) id new cs : Trie τ ν).root.get p ≠ none ∧
        (∃ x, x ≤ k ∧ Edit ⟨ins, del, sub, some swap⟩ word p x) ∧
        ∀ q, q ≠ [] → q <+: p → ∃ u x, u <+: word ∧ x ≤ k ∧
          Edit ⟨ins, del, sub, some swap⟩ u q x := by
  have h := inv_afterCalls (fun w : List τ => w) id cs (inv_new (τ := τ) (ν := ν))
  rw [levenshteinLookup_eq _ word hw k hk hi hd hsu hsw]
  have hsub := foundP_sublist (callCosts ins del sub swap) word k []
    (afterCalls (fun w => w) id new cs : Trie τ ν).root.kids.reverse
  rw [← Node.items_eq, found] at hsub
  have he : (items id (afterCalls (fun w => w) id new cs : Trie τ ν)) =
      (afterCalls (fun w => w) id new cs : Trie τ ν).root.items := by simp [items]
  refine ⟨_, rfl, ?_, ((Node.nodup_items h.wf).filter _).sublist hsub, fun p => ?_⟩
  · rw [he]
    exact hsub.trans List.filter_sublist
  · have hcell : ∀ q j, cell (callCosts ins del sub swap) word q j ≤ k ↔
        ∃ x, x ≤ k ∧ Edit ⟨ins, del, sub, some swap⟩ (word.take j) q x := by
      intro q j
      unfold cell
      rw [dist_reverse, dist_le_iff]
    have hmem : p ∈ (frameItems [] (afterCalls (fun w => w) id new cs : Trie τ ν).root.kids.reverse
        ).map Prod.fst ↔ p ≠ [] ∧
          (afterCalls (fun w => w) id new cs : Trie τ ν).root.get p ≠ none := by
      rw [← Node.items_eq, List.mem_map]
      constructor
      · rintro ⟨⟨q, v⟩, hm, rfl⟩
        have := (Node.mem_items h.wf _ _).mp hm
        exact ⟨this.1, by simp [this.2]⟩
      · rintro ⟨hp, hg⟩
        obtain ⟨v, hv⟩ := Option.ne_none_iff_exists'.mp hg
        exact ⟨(p, v), (Node.mem_items h.wf _ _).mpr ⟨hp, hv⟩, rfl⟩
    rw [mem_foundP, hmem, hcell, List.take_length, and_assoc]
    refine and_congr_right fun _ => and_congr_right fun _ => and_congr_right fun _ =>
      forall_congr' fun q => imp_congr_right fun _ => ?_
    rw [List.nil_append]
    refine imp_congr_right fun _ => ?_
    constructor
    · rintro ⟨j, _, hj⟩
      obtain ⟨x, hx, he⟩ := (hcell q j).mp hj
      exact ⟨_, x, List.take_prefix _ _, hx, he⟩
    · rintro ⟨u, x, hu, hx, he⟩
      refine ⟨u.length, Nat.lt_succ_of_le hu.length_le, (hcell q _).mpr ⟨x, hx, ?_⟩⟩
      rw [← List.prefix_iff_eq_take.mp hu]
      exact he

/-- Free transpositions, distance 0, word "ab": "ba" is at cost 0 but its beginning "b" is at cost
1 from every beginning of "ab", so it is not yielded; with distance 1 it is. -/
example : levenshteinLookup id true (afterCalls (fun w => w) id (new : Trie Nat String)
      [.set [2, 1] "z", .set [1, 2] "x"]) [1, 2] 0 1 1 1 0 = .ok [[1, 2]] ∧
    levenshteinLookup id true (afterCalls (fun w => w) id (new : Trie Nat String)
      [.set [2, 1] "z", .set [1, 2] "x"]) [1, 2] 1 1 1 1 0 = .ok [[1, 2], [2, 1]] := by
  constructor <;>
  simp (decide := true) [levenshteinLookup, lookupLoop, levRow, levCells,
    levCell, pyMin, pyGet, pyGetI, pySet, pyIndex, afterCalls,
    step, setItem, Node.put, Node.get, Node.val, Node.kids, new, Node.empty, Dict.set,
    Dict.get?, bind, Except.bind, pure, Except.pure, List.range, List.range.loop]

end Trie
end Verif
