import Verif.Trie.ScanOverlap
import Verif.Trie.State

/-!
# Searching and replacing with a `Trie`: properties C59 to C62

The results hold for every trie; `t.root.get` is the mapping it stores (see C52 and C55).
-/

namespace Verif
namespace Trie

open TrieSpec

variable {κ τ ν : Type} [DecidableEq τ]

/-- **C59.** `finditer(text)` never raises and yields exactly the occurrences of the leftmost-longest
cutting of the text, of which there is exactly one. -/
theorem C59_finditer_leftmost_longest (tok : κ → List τ) (detok : List τ → κ) (t : Trie τ ν)
    (text : κ) :
    ∃! gs : List (Seg τ ν), LeftmostLongest t.root.get (tok text) gs ∧
      finditer tok detok t false text =
        .ok ((occurrences 0 gs).map (fun h => (h.1, h.2.1, detok h.2.2))) := by
  obtain ⟨gs, h1, h2⟩ := findTokens_false t.root (tok text)
  refine ⟨gs, ⟨h1, ?_⟩, fun gs' h => ll_unique h.1 h1⟩
  unfold finditer
  rw [h2]

/-- **C59.** The matches of `finditer(text)` do not overlap, come from left to right, are non-empty,
and carry the key that the text has at their position. -/
theorem C59_finditer_sound (tok : κ → List τ) (detok : List τ → κ) (t : Trie τ ν) (text : κ) :
    ∃ hits : List (Nat × Nat × List τ),
      finditer tok detok t false text = .ok (hits.map (fun h => (h.1, h.2.1, detok h.2.2))) ∧
      (∀ s e w, (s, e, w) ∈ hits → s < e ∧ t.root.get w ≠ none ∧
        ∃ pre post, tok text = pre ++ w ++ post ∧ pre.length = s ∧ (pre ++ w).length = e) ∧
      hits.Pairwise (fun p q => p.2.1 ≤ q.1) := by
  obtain ⟨gs, h1, h2⟩ := findTokens_false t.root (tok text)
  obtain ⟨h3, h4⟩ := occurrences_spec h1 0
  refine ⟨_, by unfold finditer; rw [h2], ?_, h4⟩
  intro s e w hm
  obtain ⟨a1, a2, a3, a4, pre, post, a5, a6⟩ := h3 _ hm
  simp only at a2 a3 a6
  have := List.length_pos_of_ne_nil a3
  refine ⟨by omega, a4, pre, post, a5, by omega, ?_⟩
  rw [List.length_append]
  omega

/-- A trie with the keys `[1]`, `[1,2,3]`, `[2,3,4]` and `[3]`. -/
def exampleTrie : Trie Nat (List Nat) :=
  afterCalls (fun w : List Nat => w) id new
    [.set [1] [10], .set [1, 2, 3] [20], .set [2, 3, 4] [30], .set [3] [40, 41]]

example : finditer (fun w : List Nat => w) id exampleTrie false [1, 2, 3, 4, 1, 2, 2, 3, 4, 3]
    = .ok [(0, 3, [1, 2, 3]), (4, 5, [1]), (6, 9, [2, 3, 4]), (9, 10, [3])] := by
  unfold exampleTrie
  decide +kernel

/-- **C60.** `finditer(text, allow_overlapping=True)` never raises and yields every occurrence of
every stored non-empty key exactly once, ordered by end and then by start. -/
theorem C60_finditer_overlapping (tok : κ → List τ) (detok : List τ → κ) (t : Trie τ ν)
    (text : κ) :
    ∃ hits : List (Nat × Nat × List τ),
      finditer tok detok t true text = .ok (hits.map (fun h => (h.1, h.2.1, detok h.2.2))) ∧
      (∀ s e w, (s, e, w) ∈ hits ↔ w ≠ [] ∧ t.root.get w ≠ none ∧
        ∃ pre post, tok text = pre ++ w ++ post ∧ pre.length = s ∧ (pre ++ w).length = e) ∧
      hits.Pairwise (fun a b => a.2.1 < b.2.1 ∨ (a.2.1 = b.2.1 ∧ a.1 < b.1)) := by
  obtain ⟨out, h1, h2⟩ := findTokens_true t.root (tok text)
  refine ⟨out, by unfold finditer; rw [h1], ?_, h2.order⟩
  intro s e w
  rw [h2.mem]
  constructor
  · rintro ⟨pre, post, a1, a2, a3, a4, a5⟩
    exact ⟨a4, a5, pre, post, a1, a2, by rw [List.length_append]; omega⟩
  · rintro ⟨a4, a5, pre, post, a1, a2, a3⟩
    rw [List.length_append] at a3
    exact ⟨pre, post, a1, a2, by omega, a4, a5⟩

example : finditer (fun w : List Nat => w) id exampleTrie true [1, 2, 3, 4]
    = .ok [(0, 1, [1]), (0, 3, [1, 2, 3]), (2, 3, [3]), (1, 4, [2, 3, 4])] := by
  unfold exampleTrie
  decide +kernel

/-- **C61.** `translate(text)` never raises; it replaces each occurrence of the leftmost-longest
cutting by the stored value and copies every other token. -/
theorem C61_translate (tok : κ → List τ) (detok : List τ → κ) (t : Trie τ κ) (text : κ) :
    ∃! gs : List (Seg τ κ), LeftmostLongest t.root.get (tok text) gs ∧
      translate tok detok t text = .ok (detok (replaced tok gs)) := by
  obtain ⟨gs, h1, h2⟩ := translateTokens_ok tok t.root (tok text)
  refine ⟨gs, ⟨h1, ?_⟩, fun gs' h => ll_unique h.1 h1⟩
  unfold translate
  rw [h2]

example : translate (fun w : List Nat => w) id exampleTrie [1, 2, 3, 4, 1, 2, 2, 3, 4, 3]
    = .ok [20, 4, 10, 2, 30, 40, 41] := by
  unfold exampleTrie
  decide +kernel

/-- **C61.** `translate` leaves a text alone in which no stored key occurs. -/
theorem C61_translate_no_match (tok : κ → List τ) (detok : List τ → κ) (t : Trie τ κ) (text : κ)
    (h : ∀ pre w post, tok text = pre ++ w ++ post → w ≠ [] → t.root.get w = none) :
    translate tok detok t text = .ok (detok (tok text)) := by
  obtain ⟨gs, h1, h2⟩ := translateTokens_ok tok t.root (tok text)
  have key : ∀ (ts : List τ) (gs : List (Seg τ κ)), LeftmostLongest t.root.get ts gs →
      (∀ pre w post, ts = pre ++ w ++ post → w ≠ [] → t.root.get w = none) →
      replaced tok gs = ts := by
    intro ts gs hl
    induction hl with
    | nil => intro _; rfl
    | @hit w rest v segs k1 k2 k3 k4 ih =>
      intro hn
      have := hn [] w rest (by simp) k1
      rw [k2] at this
      simp at this
    | @tok y rest segs k1 k2 ih =>
      intro hn
      rw [replaced, ih]
      intro pre w post he hw
      exact hn (y :: pre) w post (by rw [he]; simp) hw
  unfold translate
  rw [h2]
  simp only
  rw [key _ gs h1 h]

example : translate (fun w : List Nat => w) id exampleTrie [2, 4, 2] = .ok [2, 4, 2] := by
  unfold exampleTrie
  decide +kernel

/-- **C62.** `search(text)` returns `None` exactly when no stored non-empty key occurs in the text;
otherwise it returns an occurrence with the smallest start, and the longest among those. -/
theorem C62_search (tok : κ → List τ) (detok : List τ → κ) (t : Trie τ ν) (text : κ) :
    (search tok detok t false text = .ok none ∧
      ∀ pre w post, tok text = pre ++ w ++ post → w ≠ [] → t.root.get w = none) ∨
    (∃ pre w post, search tok detok t false text =
        .ok (some (pre.length, (pre ++ w).length, detok w)) ∧
      tok text = pre ++ w ++ post ∧ w ≠ [] ∧ t.root.get w ≠ none ∧
      ∀ pre' w' post', tok text = pre' ++ w' ++ post' → w' ≠ [] → t.root.get w' ≠ none →
        pre.length ≤ pre'.length ∧ (pre.length = pre'.length → w'.length ≤ w.length)) := by
  obtain ⟨gs, h1, h2⟩ := findTokens_false t.root (tok text)
  obtain ⟨h3, h4⟩ := occurrences_head h1 0
  have hs : search tok detok t false text =
      .ok (((occurrences 0 gs).head?).map (fun h => (h.1, h.2.1, detok h.2.2))) := by
    unfold search finditer
    rw [h2]
    simp
  rw [hs]
  cases hh : (occurrences 0 gs).head? with
  | none => exact .inl ⟨by simp, h4 hh⟩
  | some q =>
    right
    obtain ⟨s, e, w⟩ := q
    obtain ⟨-, a2, a3, a4, pre, post, a5, a6⟩ := (occurrences_spec h1 0).1 (s, e, w)
      (List.mem_of_head? hh)
    simp only at a2 a3 a4 a5 a6
    refine ⟨pre, w, post, ?_, a5, a3, a4, ?_⟩
    · rw [List.length_append]
      simp
      omega
    · intro pre' w' post' k1 k2 k3
      have := h3 _ hh pre' w' post' k1 k2 k3
      simp only at this
      exact ⟨by omega, fun h => this.2 (by omega)⟩

/-- **C62.** `search(text, allow_overlapping=True)` returns an occurrence with the smallest end, and
the longest among those. -/
theorem C62_search_overlapping (tok : κ → List τ) (detok : List τ → κ) (t : Trie τ ν) (text : κ) :
    (search tok detok t true text = .ok none ∧
      ∀ pre w post, tok text = pre ++ w ++ post → w ≠ [] → t.root.get w = none) ∨
    (∃ pre w post, search tok detok t true text =
        .ok (some (pre.length, (pre ++ w).length, detok w)) ∧
      tok text = pre ++ w ++ post ∧ w ≠ [] ∧ t.root.get w ≠ none ∧
      ∀ pre' w' post', tok text = pre' ++ w' ++ post' → w' ≠ [] → t.root.get w' ≠ none →
        (pre ++ w).length ≤ (pre' ++ w').length ∧
        ((pre ++ w).length = (pre' ++ w').length → w'.length ≤ w.length)) := by
  obtain ⟨out, h1, h2⟩ := findTokens_true t.root (tok text)
  have hs : search tok detok t true text =
      .ok ((out.head?).map (fun h => (h.1, h.2.1, detok h.2.2))) := by
    unfold search finditer
    rw [h1]
    simp
  rw [hs]
  cases out with
  | nil =>
    left
    refine ⟨rfl, ?_⟩
    intro pre w post k1 k2
    by_contra hne
    have := (h2.mem pre.length (pre.length + w.length) w).mpr ⟨pre, post, k1, rfl, rfl, k2, hne⟩
    simp at this
  | cons q out =>
    right
    obtain ⟨s, e, w⟩ := q
    obtain ⟨pre, post, a1, a2, a3, a4, a5⟩ := (h2.mem s e w).mp (by simp)
    refine ⟨pre, w, post, ?_, a1, a4, a5, ?_⟩
    · rw [List.length_append]
      simp
      omega
    · intro pre' w' post' k1 k2 k3
      have hm := (h2.mem pre'.length (pre'.length + w'.length) w').mpr
        ⟨pre', post', k1, rfl, rfl, k2, k3⟩
      rw [List.length_append, List.length_append]
      rcases List.mem_cons.mp hm with he | hm
      · simp only [Prod.mk.injEq] at he
        obtain ⟨h3, h4, rfl⟩ := he
        omega
      · have := (List.pairwise_cons.mp h2.order).1 _ hm
        simp only at this
        omega

example : search (fun w : List Nat => w) id exampleTrie false [5, 1, 2, 3, 4]
    = .ok (some (1, 4, [1, 2, 3])) := by
  unfold exampleTrie
  decide +kernel

/-- With overlaps the first match need not be the leftmost one (the documentation of `search` calls
it the first shortest match). -/
theorem C62_overlapping_not_leftmost :
    search (fun w : List Nat => w) id (afterCalls (fun w : List Nat => w) id
      (new : Trie Nat (List Nat)) [.set [1, 2, 3] [], .set [2] []]) true [1, 2, 3]
    = .ok (some (1, 2, [2])) := by
  decide +kernel

/-- With overlaps the first match need not be a shortest one either. -/
theorem C62_overlapping_not_shortest :
    search (fun w : List Nat => w) id (afterCalls (fun w : List Nat => w) id
      (new : Trie Nat (List Nat)) [.set [1, 2] [], .set [2] []]) true [1, 2]
    = .ok (some (0, 2, [1, 2])) := by
  decide +kernel

/-- **C62.** `findall` gives the texts of the matches of `finditer`, in order. -/
theorem C62_findall (tok : κ → List τ) (detok : List τ → κ) (t : Trie τ ν) (text : κ) :
    ∃ gs : List (Seg τ ν), LeftmostLongest t.root.get (tok text) gs ∧
      findall tok detok t false text = .ok (gs.filterMap (fun g => match g with
        | .tok _ => none
        | .hit w _ => some (detok w))) := by
  obtain ⟨gs, h1, h2⟩ := findTokens_false t.root (tok text)
  refine ⟨gs, h1, ?_⟩
  unfold findall finditer
  rw [h2]
  simp only [List.map_map]
  congr 1
  clear h1 h2
  suffices h : ∀ b, (occurrences b gs).map ((fun h : Nat × Nat × κ => h.2.2) ∘
      fun h => (h.1, h.2.1, detok h.2.2)) = gs.filterMap (fun g => match g with
        | .tok _ => none
        | .hit w _ => some (detok w)) from h 0
  intro b
  induction gs generalizing b with
  | nil => rfl
  | cons g gs ih => cases g <;> simp [occurrences, ih]

end Trie
end Verif
