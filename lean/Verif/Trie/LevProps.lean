import Verif.Trie.LevLemmas
import Verif.Trie.State

/-!
# Approximate lookup in a `Trie`: properties C63–C64

Keys are strings given as lists of characters, the tokenizer splits a string into its characters.
The specification of edit scripts is in `Verif.Edit.Spec`.
-/

namespace Verif
namespace Trie

open EditSpec TrieSpec

variable {τ ν : Type} [DecidableEq τ]

theorem levenshteinLookup_eq (t : Trie τ ν) (word : List τ) (hw : word ≠ []) (k : ℚ) (hk : 0 ≤ k)
    {ins del sub swap : ℚ} (hi : 0 ≤ ins) (hd : 0 ≤ del) (hsu : 0 ≤ sub) (hsw : 0 ≤ swap) :
    levenshteinLookup id true t word k ins del sub swap =
      .ok (foundP (callCosts ins del sub swap) word k [] t.root.kids.reverse) := by
  have hc : (callCosts ins del sub swap).Nonneg :=
    ⟨hi, hd, hsu, fun t ht => by cases ht; exact hsw⟩
  have hl := List.length_pos_of_ne_nil hw
  unfold levenshteinLookup
  rw [if_neg (by simp [hk, hi, hd, hsu, hl]), levFirst ins del sub swap word,
    lookupLoop_root (levRowsOk hc)]
  simp

theorem damerauLookup_eq (t : Trie τ ν) (word : List τ) (hw : word ≠ []) (k : ℚ) (hk : 0 ≤ k)
    {ins del sub swap : ℚ} (hi : 0 ≤ ins) (hd : 0 ≤ del) (hsu : 0 ≤ sub) (hsw : 0 ≤ swap) :
    damerauLookup id true t word k ins del sub swap =
      .ok (foundP (callCosts ins del sub swap) word k [] t.root.kids.reverse) := by
  have hc : (callCosts ins del sub swap).Nonneg :=
    ⟨hi, hd, hsu, fun t ht => by cases ht; exact hsw⟩
  have hl := List.length_pos_of_ne_nil hw
  unfold damerauLookup
  rw [if_neg (by simp [hk, hi, hd, hsu, hl, hsw]), damFirst ins del sub swap word,
    lookupLoop_root (damRowsOk hc hw)]
  simp

/-- **C63.** On a trie reached by any calls, `levenshtein_lookup` yields exactly the stored
non-empty keys that some edit script of cost at most `distance` makes out of the word, each once
and in the order of `keys()`. The costs have to be non-negative and a transposition must not be
cheaper than the cheapest other operation. -/
theorem C63_levenshtein_lookup_exact (cs : List (Call (List τ) ν)) (word : List τ) (hw : word ≠ [])
    (k ins del sub swap : ℚ) (hk : 0 ≤ k) (hi : 0 ≤ ins) (hd : 0 ≤ del) (hsu : 0 ≤ sub)
    (hsw : min (min ins del) sub ≤ swap) :
    ∃ l, levenshteinLookup id true (afterCalls (fun w => w) id new cs) word k ins del sub swap =
        .ok l ∧
      l.Sublist ((items id (afterCalls (fun w => w) id new cs : Trie τ ν)).map Prod.fst) ∧
      l.Nodup ∧
      ∀ p, p ∈ l ↔ p ≠ [] ∧ (afterCalls (fun w => w) id new cs : Trie τ ν).root.get p ≠ none ∧
        ∃ x, x ≤ k ∧ Edit ⟨ins, del, sub, some swap⟩ word p x := by
  have h := inv_afterCalls (fun w : List τ => w) id cs (inv_new (τ := τ) (ν := ν))
  have hsw0 : 0 ≤ swap := le_trans (le_min (le_min hi hd) hsu) hsw
  have hc : (callCosts ins del sub swap).Nonneg :=
    ⟨hi, hd, hsu, fun t ht => by cases ht; exact hsw0⟩
  rw [levenshteinLookup_eq _ word hw k hk hi hd hsu hsw0,
    foundP_items hc (fun t ht => by cases ht; exact hsw)]
  refine ⟨_, rfl, ?_, (Node.nodup_items h.wf).filter _, ?_⟩
  · have : (items id (afterCalls (fun w => w) id new cs : Trie τ ν)) =
        (afterCalls (fun w => w) id new cs : Trie τ ν).root.items := by simp [items]
    rw [this]
    exact List.filter_sublist
  · intro p
    rw [List.mem_filter, List.mem_map, decide_eq_true_iff, dist_le_iff]
    constructor
    · rintro ⟨⟨⟨q, v⟩, hm, rfl⟩, hx⟩
      have := (Node.mem_items h.wf _ _).mp hm
      exact ⟨this.1, by simp [this.2], hx⟩
    · rintro ⟨hp, hg, hx⟩
      obtain ⟨v, hv⟩ := Option.ne_none_iff_exists'.mp hg
      exact ⟨⟨(p, v), (Node.mem_items h.wf _ _).mpr ⟨hp, hv⟩, rfl⟩, hx⟩

/-- Without the condition on the transposition cost nothing wrong is yielded, but keys may be
missing. -/
theorem C63_levenshtein_lookup_sound (cs : List (Call (List τ) ν)) (word : List τ) (hw : word ≠ [])
    (k ins del sub swap : ℚ) (hk : 0 ≤ k) (hi : 0 ≤ ins) (hd : 0 ≤ del) (hsu : 0 ≤ sub)
    (hsw : 0 ≤ swap) :
    ∃ l, levenshteinLookup id true (afterCalls (fun w => w) id new cs) word k ins del sub swap =
        .ok l ∧ l.Nodup ∧
      ∀ p ∈ l, p ≠ [] ∧ (afterCalls (fun w => w) id new cs : Trie τ ν).root.get p ≠ none ∧
        ∃ x, x ≤ k ∧ Edit ⟨ins, del, sub, some swap⟩ word p x := by
  have h := inv_afterCalls (fun w : List τ => w) id cs (inv_new (τ := τ) (ν := ν))
  rw [levenshteinLookup_eq _ word hw k hk hi hd hsu hsw]
  have hsub := foundP_sublist (callCosts ins del sub swap) word k []
    (afterCalls (fun w => w) id new cs : Trie τ ν).root.kids.reverse
  rw [← Node.items_eq, found] at hsub
  refine ⟨_, rfl, ((Node.nodup_items h.wf).filter _).sublist hsub, ?_⟩
  intro p hp
  have := hsub.subset hp
  rw [List.mem_filter, List.mem_map, decide_eq_true_iff] at this
  obtain ⟨⟨⟨q, v⟩, hm, rfl⟩, hx⟩ := this
  unfold cell at hx
  rw [List.take_length, dist_reverse] at hx
  have := (Node.mem_items h.wf _ _).mp hm
  exact ⟨this.1, by simp [this.2], (dist_le_iff _ _ _ _).mp hx⟩

/-- Evaluates lookups on concrete tries. -/
local macro "lookup_eval" : tactic =>
  `(tactic| simp (decide := true) [levenshteinLookup, damerauLookup, lookupLoop, levRow, levCells,
    levCell, damRow, damCells, damCell, pyMin, pyGet, pyGetI, pySet, pySetI, pyIndex, afterCalls,
    step, setItem, Node.put, Node.get, Node.walk, Node.val, Node.kids, new, Node.empty, Dict.set,
    Dict.get?, bind, Except.bind, pure, Except.pure, List.range, List.range.loop, List.range'])

/-- The words "ab", "b" and "ba" (as numbers), looked up with "ab" and distance 1. -/
example : levenshteinLookup id true (afterCalls (fun w => w) id (new : Trie Nat String)
    [.set [1, 2] "x", .set [2] "y", .set [2, 1] "z"]) [1, 2] 1 1 1 1 2 = .ok [[2], [1, 2]] := by
  lookup_eval

/-- The condition on the transposition cost is needed: with free transpositions "ba" is at cost 0
from "ab", but it is not found with distance 0. -/
theorem C63_cheap_transposition_missed :
    levenshteinLookup id true (afterCalls (fun w => w) id (new : Trie Nat String)
      [.set [2, 1] "z"]) [1, 2] 0 1 1 1 0 = .ok [] ∧
    Edit (⟨1, 1, 1, some 0⟩ : Costs ℚ) [1, 2] [2, 1] 0 := by
  constructor
  · lookup_eval
  · simpa using Edit.swap (c := (⟨1, 1, 1, some 0⟩ : Costs ℚ)) 1 2 rfl Edit.nil

/-- **C64.** `damerau_levenshtein_lookup` yields the same keys in the same order as
`levenshtein_lookup`, whatever the tokenizer, word, bound and costs, provided the transposition
cost is not negative. -/
theorem C64_damerau_same (charTok : Bool) (t : Trie τ ν) (word : List τ) (k ins del sub swap : ℚ)
    (hsw : 0 ≤ swap) :
    damerauLookup id charTok t word k ins del sub swap =
      levenshteinLookup id charTok t word k ins del sub swap := by
  by_cases hg : charTok = false ∨ ¬ 0 ≤ k ∨ ¬ 0 < word.length ∨ ¬ 0 ≤ ins ∨ ¬ 0 ≤ del ∨ ¬ 0 ≤ sub
  · unfold damerauLookup levenshteinLookup
    rw [if_pos hg, if_pos (by tauto)]
  · simp only [not_or, not_not, Bool.not_eq_false] at hg
    obtain ⟨rfl, hk, hw, hi, hd, hsu⟩ := hg
    have hw' : word ≠ [] := List.ne_nil_of_length_pos hw
    rw [damerauLookup_eq t word hw' k hk hi hd hsu hsw,
      levenshteinLookup_eq t word hw' k hk hi hd hsu hsw]

/-- Both raise `AssertionError` for a tokenizer that does not split into characters, the empty
word, a negative bound or a negative cost. -/
theorem C64_lookup_rejects (t : Trie τ ν) (charTok : Bool) (word : List τ) (k ins del sub swap : ℚ)
    (h : charTok = false ∨ k < 0 ∨ word = [] ∨ ins < 0 ∨ del < 0 ∨ sub < 0) :
    levenshteinLookup id charTok t word k ins del sub swap = .error .assertionError ∧
    damerauLookup id charTok t word k ins del sub swap = .error .assertionError := by
  have h' : charTok = false ∨ ¬ 0 ≤ k ∨ ¬ 0 < word.length ∨ ¬ 0 ≤ ins ∨ ¬ 0 ≤ del ∨ ¬ 0 ≤ sub := by
    simpa only [not_le, List.length_pos_iff, ne_eq, not_not] using h
  unfold levenshteinLookup damerauLookup
  exact ⟨if_pos h', if_pos (by tauto)⟩

/-- `damerau_levenshtein_lookup` also raises it for a negative transposition cost, which
`levenshtein_lookup` accepts. -/
theorem C64_negative_transposition :
    (∀ (t : Trie τ ν) (charTok : Bool) (word : List τ) (k ins del sub swap : ℚ), swap < 0 →
      damerauLookup id charTok t word k ins del sub swap = .error .assertionError) ∧
    levenshteinLookup id true (afterCalls (fun w => w) id (new : Trie Nat String)
      [.set [2, 1] "z"]) [1, 2] 1 1 1 1 (-1) = .ok [[2, 1]] := by
  refine ⟨?_, by lookup_eval⟩
  intro t charTok word k ins del sub swap h
  have := not_le.mpr h
  unfold damerauLookup
  exact if_pos (by tauto)

example : damerauLookup id true (afterCalls (fun w => w) id (new : Trie Nat String)
    [.set [1, 2] "x", .set [2] "y", .set [2, 1] "z"]) [1, 2] 1 1 1 1 1
      = .ok [[2], [2, 1], [1, 2]] := by
  lookup_eval

end Trie
end Verif
