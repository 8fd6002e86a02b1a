import Verif.Trie.LongestLemmas
import Verif.Trie.ScanProps

/-!
# `findall_longest`: property C65
-/

namespace Verif
namespace Trie

open TrieSpec

variable {κ τ ν : Type} [DecidableEq τ]

/-- `h = (start, end, key)` says that a stored non-empty key stands in the text from `start` up to
`end`. -/
def OccursAt (m : Map τ ν) (text : List τ) (h : Nat × Nat × List τ) : Prop :=
  h.2.2 ≠ [] ∧ m h.2.2 ≠ none ∧
    ∃ pre post, text = pre ++ h.2.2 ++ post ∧ pre.length = h.1 ∧ (pre ++ h.2.2).length = h.2.1

/-- **C65.** `findall_longest(text)` never raises; it returns, from left to right, the texts of
non-overlapping occurrences of stored keys, and no non-overlapping occurrences cover more tokens. -/
theorem C65_findall_longest (tok : κ → List τ) (detok : List τ → κ) (t : Trie τ ν) (text : κ) :
    ∃ hits : List (Nat × Nat × List τ),
      findallLongest tok detok t text = .ok (hits.map (fun h => detok h.2.2)) ∧
      (∀ h ∈ hits, OccursAt t.root.get (tok text) h) ∧
      hits.Pairwise (fun a b => a.2.1 ≤ b.1) ∧
      ∀ hits' : List (Nat × Nat × List τ), (∀ h ∈ hits', OccursAt t.root.get (tok text) h) →
        hits'.Pairwise (fun a b => a.2.1 ≤ b.1) →
        (hits'.map (fun h => h.2.2.length)).sum ≤ (hits.map (fun h => h.2.2.length)).sum := by
  obtain ⟨out, h1, h2⟩ := findTokens_true t.root (tok text)
  have hocc : ∀ h, h ∈ out ↔ OccursAt t.root.get (tok text) h := by
    rintro ⟨s, e, w⟩
    rw [h2.mem]
    constructor
    · rintro ⟨pre, post, a1, a2, a3, a4, a5⟩
      exact ⟨a4, a5, pre, post, a1, a2, by simp only [List.length_append]; omega⟩
    · rintro ⟨a4, a5, pre, post, a1, a2, a3⟩
      simp only [List.length_append] at a1 a2 a3 a4 a5
      exact ⟨pre, post, a1, a2, by omega, a4, a5⟩
  have hlen : ∀ h, OccursAt t.root.get (tok text) h →
      h.1 < h.2.1 ∧ hitLen h = h.2.2.length := by
    rintro ⟨s, e, w⟩ ⟨a1, -, pre, post, -, a2, a3⟩
    simp only [List.length_append] at a1 a2 a3
    have := List.length_pos_of_ne_nil a1
    unfold hitLen
    simp only
    omega
  have htot : ∀ l : List (Nat × Nat × List τ), (∀ h ∈ l, OccursAt t.root.get (tok text) h) →
      (l.map (fun h => h.2.2.length)).sum = totalLen l := by
    intro l hl
    unfold totalLen
    rw [List.map_congr_left (fun h hh => ((hlen h (hl h hh)).2).symm)]
  generalize hS : out.insertionSort (fun a b => toLex (a.1, a.2.1) ≤ toLex (b.1, b.2.1)) = S
  have hmem : ∀ x, x ∈ S ↔ OccursAt t.root.get (tok text) x := by
    intro x
    rw [← hS, List.mem_insertionSort, hocc]
  have hsort : S.Pairwise (fun a b => a.1 ≤ b.1) := by
    have : Std.Total (fun a b : Hit τ => toLex (a.1, a.2.1) ≤ toLex (b.1, b.2.1)) :=
      ⟨fun a b => le_total _ _⟩
    have : IsTrans (Hit τ) (fun a b => toLex (a.1, a.2.1) ≤ toLex (b.1, b.2.1)) :=
      ⟨fun a b c h1 h2 => le_trans h1 h2⟩
    rw [← hS]
    refine (List.pairwise_insertionSort _ _).imp ?_
    intro a b hab
    rw [Prod.Lex.toLex_le_toLex] at hab
    rcases hab with h | h
    · exact h.le
    · exact h.1.le
  obtain ⟨l, k1, k2, k3⟩ := clusterLoop_ok S (D := []) (out := []) (cluster := []) (ce := 0)
    (fun h hh => (hlen h ((hmem h).mp (by simpa using hh))).1) hsort ⟨by simp, List.Pairwise.nil⟩
    (by
      intro c hc
      have : c = [] := List.eq_nil_iff_forall_not_mem.mpr (fun a ha => by simpa using hc.1 a ha)
      simp [this])
    (by simp) (by simp)
  simp only [List.nil_append] at k2 k3
  have hl : ∀ h ∈ l, OccursAt t.root.get (tok text) h := fun h hh => (hmem h).mp (k2.1 h hh)
  refine ⟨l, ?_, hl, k2.2, ?_⟩
  · unfold findallLongest
    rw [h1]
    simp only
    rw [hS, k1]
  · intro hits' h3 h4
    rw [htot _ h3, htot _ hl]
    exact k3 _ ⟨fun h hh => (hmem h).mpr (h3 h hh), h4⟩

/-- Two clusters with overlapping matches. -/
example : findallLongest (fun w : List Nat => w) id (afterCalls (fun w : List Nat => w) id
      (new : Trie Nat String) [.set [1, 2] "", .set [2, 3, 4, 5] "", .set [1, 2, 3] "",
        .set [4, 5] "", .set [5, 6, 7] ""]) [1, 2, 3, 4, 5, 6, 7, 8, 1, 2, 2]
    = .ok [[1, 2, 3], [5, 6, 7], [1, 2]] := by
  decide +kernel

/-- It covers more than the leftmost-longest matches do. -/
theorem C65_longer_than_finditer :
    findallLongest (fun w : List Nat => w) id (afterCalls (fun w : List Nat => w) id
      (new : Trie Nat String) [.set [1, 2] "", .set [2, 3, 4] ""]) [1, 2, 3, 4]
      = .ok [[2, 3, 4]] ∧
    findall (fun w : List Nat => w) id (afterCalls (fun w : List Nat => w) id
      (new : Trie Nat String) [.set [1, 2] "", .set [2, 3, 4] ""]) false [1, 2, 3, 4]
      = .ok [[1, 2]] := by
  constructor <;> decide +kernel

end Trie
end Verif
