import Verif.Edit.SymProps
import Mathlib.Algebra.Order.BigOperators.Group.Finset
import Mathlib.Algebra.BigOperators.Group.Finset.Piecewise

/-!
# C247: BK trees and the distances they are made from

`BKNode` (experiments/automata.py, lines 318–343): which nodes `_search` visits, and words changed in a way
that keeps all distances.
-/

namespace Verif
namespace Edit

open EditSpec

variable {α β : Type} [DecidableEq α] [DecidableEq β]

/-- `g` keeps the distances computed by `levenshtein`. -/
def KeepsDistances (g : List α → List β) : Prop := ∀ u v, levenshtein (g u) (g v) = levenshtein u v

mutual
/-- The tree with every term changed. -/
def BK.mapTerms (g : List α → List β) : BK α → BK β
  | .node t cs => .node (g t) (BK.mapKids g cs)
/-- The children with every term changed. -/
def BK.mapKids (g : List α → List β) : List (Nat × BK α) → List (Nat × BK β)
  | [] => []
  | (d, c) :: rest => (d, BK.mapTerms g c) :: BK.mapKids g rest
end

mutual
theorem BK.insert_map {g : List α → List β} (hg : KeepsDistances g) (n : BK α) (o : List α) :
    BK.insert (BK.mapTerms g n) (g o) = (BK.insert n o).map (BK.mapTerms g) := by
  match n with
  | .node t cs =>
    rw [BK.mapTerms, BK.insert, BK.insert, hg, levenshtein_ok]
    simp only
    rw [BK.insertKids_map hg cs]
    cases BK.insertKids (dist unitCosts t o) o cs with
    | error e => rfl
    | ok l => simp only [Except.map, BK.mapTerms]
theorem BK.insertKids_map {g : List α → List β} (hg : KeepsDistances g) (cs : List (Nat × BK α)) (d : Nat)
    (o : List α) :
    BK.insertKids d (g o) (BK.mapKids g cs) = (BK.insertKids d o cs).map (BK.mapKids g) := by
  match cs with
  | [] => rw [BK.mapKids, BK.insertKids, BK.insertKids]; simp [Except.map, BK.mapKids, BK.mapTerms]
  | (k, c) :: rest =>
    rw [BK.mapKids, BK.insertKids, BK.insertKids]
    split
    · rw [BK.insert_map hg c]
      cases BK.insert c o with
      | error e => rfl
      | ok l => simp only [Except.map, BK.mapKids]
    · rw [BK.insertKids_map hg rest]
      cases BK.insertKids d o rest with
      | error e => rfl
      | ok l => simp only [Except.map, BK.mapKids]
end

theorem BK.build_map {g : List α → List β} (hg : KeepsDistances g) (first : List α) (words : List (List α)) :
    BK.build (g first) (words.map g) = (BK.build first words).map (BK.mapTerms g) := by
  have key : ∀ (words : List (List α)) (n : BK α),
      (words.map g).foldlM BK.insert (BK.mapTerms g n) =
        (words.foldlM BK.insert n).map (BK.mapTerms g) := by
    intro words
    induction words with
    | nil => intro n; rfl
    | cons w ws ih =>
      intro n
      rw [List.map_cons, List.foldlM_cons, List.foldlM_cons, BK.insert_map hg]
      cases h : BK.insert n w with
      | error e => rfl
      | ok m => exact ih m
  have := key words (.node first [])
  rwa [BK.mapTerms, BK.mapKids] at this

/-- What a search returns, with every word changed. -/
def mapFound (g : List α → List β) (p : Nat × List (List α)) : Nat × List (List β) := (p.1, p.2.map g)

omit [DecidableEq α] [DecidableEq β] in
theorem bkLoop_map (g : List α → List β) (kids : List (Nat × Except PyErr (Nat × List (List α))))
    (kids' : List (Nat × Except PyErr (Nat × List (List β))))
    (h : ∀ d, kids'.lookup d = (kids.lookup d).map (fun r => r.map (mapFound g))) (dists : List Nat)
    (counter : Nat) (out : List (List α)) :
    bkLoop kids' dists counter (out.map g) = (bkLoop kids dists counter out).map (mapFound g) := by
  induction dists generalizing counter out with
  | nil => rfl
  | cons d ds ih =>
    rw [bkLoop, bkLoop, h]
    cases kids.lookup d with
    | none => exact ih _ _
    | some r =>
      cases r with
      | error e => rfl
      | ok x =>
        have := ih (counter + x.1) (out ++ x.2)
        rw [List.map_append] at this
        exact this

mutual
theorem BK.search_map {g : List α → List β} (hg : KeepsDistances g) (n : BK α) (term : List α) (k : Int) :
    BK.search (BK.mapTerms g n) (g term) k = (BK.search n term k).map (mapFound g) := by
  match n with
  | .node t cs =>
    rw [BK.mapTerms, BK.search, BK.search, hg, levenshtein_ok]
    simp only
    rw [← bkLoop_map g _ _ (BK.searchKids_map hg cs term k)]
    congr 1
    split <;> rfl
theorem BK.searchKids_map {g : List α → List β} (hg : KeepsDistances g) (cs : List (Nat × BK α))
    (term : List α) (k : Int) (d : Nat) :
    (BK.searchKids (BK.mapKids g cs) (g term) k).lookup d =
      ((BK.searchKids cs term k).lookup d).map (fun r => r.map (mapFound g)) := by
  match cs with
  | [] => rw [BK.mapKids, BK.searchKids, BK.searchKids]; rfl
  | (d0, c) :: rest =>
    rw [BK.mapKids, BK.searchKids, BK.searchKids, List.lookup_cons, List.lookup_cons, BK.search_map hg c]
    split
    · rfl
    · exact BK.searchKids_map hg rest term k d
end

/-! ### How many nodes are visited -/

/-- Sums of the results of the children looked at. -/
def childSum (kids : List (Nat × Except PyErr (Nat × List (List α)))) (f : Nat × List (List α) → Nat)
    (d : Nat) : Nat :=
  match kids.lookup d with
  | some (.ok x) => f x
  | _ => 0

omit [DecidableEq α] in
theorem bkLoop_sum {kids : List (Nat × Except PyErr (Nat × List (List α)))} {dists : List Nat}
    {counter : Nat} {out : List (List α)} {r : Nat × List (List α)}
    (h : bkLoop kids dists counter out = .ok r) :
    r.1 = counter + (dists.map (childSum kids Prod.fst)).sum ∧
    r.2.length = out.length + (dists.map (childSum kids (fun x => x.2.length))).sum := by
  induction dists generalizing counter out with
  | nil => rw [bkLoop] at h; cases h; simp
  | cons d ds ih =>
    rw [bkLoop] at h
    cases hl : kids.lookup d with
    | none =>
      rw [hl] at h
      obtain ⟨h1, h2⟩ := ih h
      simp only [List.map_cons, List.sum_cons, childSum, hl]
      omega
    | some x =>
      rw [hl] at h
      cases x with
      | error e => cases h
      | ok x =>
        obtain ⟨h1, h2⟩ := ih h
        rw [List.length_append] at h2
        simp only [List.map_cons, List.sum_cons, childSum, hl]
        omega

omit [DecidableEq α] in
theorem childSum_cons (d0 : Nat) (r : Except PyErr (Nat × List (List α)))
    (kids : List (Nat × Except PyErr (Nat × List (List α)))) (f : Nat × List (List α) → Nat) (d : Nat) :
    childSum ((d0, r) :: kids) f d =
      if d = d0 then (match r with | .ok x => f x | .error _ => 0) else childSum kids f d := by
  unfold childSum
  rw [List.lookup_cons]
  by_cases h : d = d0
  · simp only [h, beq_self_eq_true, if_true]
    cases r <;> rfl
  · simp only [show (d == d0) = false by simpa using h, if_neg h]

theorem nodup_rangeFrom (lo hi : Int) : (rangeFrom lo hi).Nodup := List.nodup_range.filter _

mutual
theorem BK.search_counts (n : BK α) (hn : BKGood n) (term : List α) (k : Int) {r : Nat × List (List α)}
    (h : BK.search n term k = .ok r) : r.2.length ≤ r.1 ∧ 1 ≤ r.1 ∧ r.1 ≤ (BK.terms n).length := by
  match n, hn with
  | .node t cs, .node _ _ hnd hg hd =>
    rw [BK.search, levenshtein_ok] at h
    simp only at h
    obtain ⟨h1, h2⟩ := bkLoop_sum h
    obtain ⟨h3, h4⟩ := BK.searchKids_counts cs hg term k
    rw [← List.sum_toFinset _ (nodup_rangeFrom _ _)] at h1 h2
    have h5 := h4 (rangeFrom (max 0 (((dist unitCosts t term : Nat) : Int) - k))
      (((dist unitCosts t term : Nat) : Int) + k + 1)).toFinset
    have h6 := Finset.sum_le_sum fun d
      (_ : d ∈ (rangeFrom (max 0 (((dist unitCosts t term : Nat) : Int) - k))
        (((dist unitCosts t term : Nat) : Int) + k + 1)).toFinset) => h3 d
    change Finset.sum _ (childSum _ Prod.fst) ≤ _ at h5
    change Finset.sum _ (childSum _ fun x => x.2.length) ≤ Finset.sum _ (childSum _ Prod.fst) at h6
    have h7 : (if ((dist unitCosts t term : Nat) : Int) ≤ k then [t] else []).length ≤ 1 := by
      split <;> simp
    rw [BK.terms, List.length_cons]
    omega
theorem BK.searchKids_counts (cs : List (Nat × BK α)) (hg : ∀ p ∈ cs, BKGood p.2) (term : List α)
    (k : Int) :
    (∀ d, childSum (BK.searchKids cs term k) (fun x => x.2.length) d ≤
      childSum (BK.searchKids cs term k) Prod.fst d) ∧
    ∀ ds : Finset Nat, ∑ d ∈ ds, childSum (BK.searchKids cs term k) Prod.fst d ≤
      (BK.termsKids cs).length := by
  match cs with
  | [] =>
    rw [BK.searchKids]
    exact ⟨fun d => by simp [childSum], fun ds => by simp [childSum]⟩
  | (d0, c0) :: rest =>
    obtain ⟨c, l, h1, -⟩ := BK.search_ok c0 (hg (d0, c0) (by simp)) term k
    obtain ⟨h2, -, h3⟩ := BK.search_counts c0 (hg (d0, c0) (by simp)) term k h1
    obtain ⟨h4, h5⟩ := BK.searchKids_counts rest (fun p hp => hg p (by simp [hp])) term k
    rw [BK.searchKids, h1]
    constructor
    · intro d
      rw [childSum_cons, childSum_cons]
      split
      · exact h2
      · exact h4 d
    · intro ds
      rw [BK.termsKids, List.length_append]
      calc ∑ d ∈ ds, childSum ((d0, Except.ok (c, l)) :: BK.searchKids rest term k) Prod.fst d
          ≤ ∑ d ∈ ds, ((if d = d0 then c else 0) + childSum (BK.searchKids rest term k) Prod.fst d) := by
            refine Finset.sum_le_sum fun d _ => ?_
            rw [childSum_cons]
            split <;> simp
        _ ≤ _ := by
            rw [Finset.sum_add_distrib]
            refine Nat.add_le_add ?_ (h5 ds)
            rw [Finset.sum_ite_eq']
            split
            · exact h3
            · exact Nat.zero_le _
end

mutual
theorem BK.search_mono (n : BK α) (hn : BKGood n) (term : List α) {k k' : Int} (hk : k ≤ k')
    {r r' : Nat × List (List α)} (h : BK.search n term k = .ok r) (h' : BK.search n term k' = .ok r') :
    r.1 ≤ r'.1 := by
  match n, hn with
  | .node t cs, .node _ _ hnd hg hd =>
    rw [BK.search, levenshtein_ok] at h h'
    simp only at h h'
    obtain ⟨h1, -⟩ := bkLoop_sum h
    obtain ⟨h2, -⟩ := bkLoop_sum h'
    rw [← List.sum_toFinset _ (nodup_rangeFrom _ _)] at h1 h2
    rw [h1, h2]
    refine Nat.add_le_add_left ?_ _
    refine (Finset.sum_le_sum fun d _ => BK.searchKids_mono cs hg term hk d).trans ?_
    refine Finset.sum_le_sum_of_subset fun d hd => ?_
    rw [List.mem_toFinset, mem_rangeFrom] at hd ⊢
    omega
theorem BK.searchKids_mono (cs : List (Nat × BK α)) (hg : ∀ p ∈ cs, BKGood p.2) (term : List α)
    {k k' : Int} (hk : k ≤ k') (d : Nat) :
    childSum (BK.searchKids cs term k) Prod.fst d ≤ childSum (BK.searchKids cs term k') Prod.fst d := by
  match cs with
  | [] => rw [BK.searchKids, BK.searchKids]
  | (d0, c0) :: rest =>
    obtain ⟨c, l, h1, -⟩ := BK.search_ok c0 (hg (d0, c0) (by simp)) term k
    obtain ⟨c', l', h2, -⟩ := BK.search_ok c0 (hg (d0, c0) (by simp)) term k'
    have h3 := BK.search_mono c0 (hg (d0, c0) (by simp)) term hk h1 h2
    rw [BK.searchKids, BK.searchKids, h1, h2, childSum_cons, childSum_cons]
    split
    · exact h3
    · exact BK.searchKids_mono rest (fun p hp => hg p (by simp [hp])) term hk d
end

/-! ### C247 -/

/-- C247: a BK tree knows its words only by their distances. If all words and the query are changed in a way
that keeps the distances, the search visits as many nodes and finds the changed words in the same order. -/
theorem C247_only_distances {g : List α → List β} (hg : KeepsDistances g) (first : List α)
    (words : List (List α)) (term : List α) (k : Int) :
    ∃ tree tree' counter out, BK.build first words = .ok tree ∧
      BK.build (g first) (words.map g) = .ok tree' ∧ BK.search tree term k = .ok (counter, out) ∧
      BK.search tree' (g term) k = .ok (counter, out.map g) := by
  obtain ⟨tree, h1, h2, -⟩ := BK.build_ok first words
  obtain ⟨c, l, h3, -⟩ := BK.search_ok tree h2 term k
  refine ⟨tree, BK.mapTerms g tree, c, l, h1, ?_, h3, ?_⟩
  · rw [BK.build_map hg, h1]
    rfl
  · rw [BK.search_map hg, h3]
    rfl

/-- C247: renaming characters one to one, reading backwards and putting words between fixed texts keep the
distances. -/
theorem C247_changes :
    (∀ f : α → β, Function.Injective f → KeepsDistances (List.map f)) ∧
    KeepsDistances (List.reverse : List α → List α) ∧
    ∀ p s : List α, KeepsDistances (fun u => p ++ u ++ s) :=
  ⟨fun f hf u v => (C246_rename f hf u v).2.1, fun u v => (C246_reverse u v).2.1,
    fun p s u v => (C246_common_ends p u v s).2.1⟩

/-- C247: `_search` visits at least one node, no more nodes than there are words, and at least as many as it
finds; with a larger `k` it visits at least as many. -/
theorem C247_visited (first : List α) (words : List (List α)) (term : List α) {k k' : Int} (hk : k ≤ k') :
    ∃ tree c out c' out', BK.build first words = .ok tree ∧ BK.search tree term k = .ok (c, out) ∧
      BK.search tree term k' = .ok (c', out') ∧
      out.length ≤ c ∧ 1 ≤ c ∧ c ≤ c' ∧ c' ≤ words.length + 1 ∧ ∀ w ∈ out, w ∈ out' := by
  obtain ⟨tree, h1, h2, h3⟩ := BK.build_ok first words
  obtain ⟨c, l, h4, h5⟩ := BK.search_ok tree h2 term k
  obtain ⟨c', l', h6, h7⟩ := BK.search_ok tree h2 term k'
  obtain ⟨a1, a2, a3⟩ := BK.search_counts tree h2 term k h4
  obtain ⟨-, -, b3⟩ := BK.search_counts tree h2 term k' h6
  refine ⟨tree, c, l, c', l', h1, h4, h6, a1, a2, BK.search_mono tree h2 term hk h4 h6, ?_, fun w hw => ?_⟩
  · rw [h3.length_eq] at b3
    exact b3
  · rw [h7]
    rw [h5] at hw
    exact ⟨hw.1, hw.2.trans hk⟩

/-- C247: inserting the words in another order, or another word first, finds the same words. -/
theorem C247_order {first first' : List α} {words words' : List (List α)}
    (h : ∀ w, w ∈ first :: words ↔ w ∈ first' :: words') (term : List α) (k : Int) :
    ∃ tree tree' c c' out out', BK.build first words = .ok tree ∧ BK.build first' words' = .ok tree' ∧
      BK.search tree term k = .ok (c, out) ∧ BK.search tree' term k = .ok (c', out') ∧
      ∀ w, w ∈ out ↔ w ∈ out' := by
  obtain ⟨tree, c, out, h1, h2, h3⟩ := C69_bk_search_exact first words term k
  obtain ⟨tree', c', out', h1', h2', h3'⟩ := C69_bk_search_exact first' words' term k
  refine ⟨tree, tree', c, c', out, out', h1, h1', h2, h2', fun w => ?_⟩
  have := h w
  rw [List.mem_cons, List.mem_cons] at this
  rw [h3, h3', this]

/-- C247: the number of visited nodes does depend on the order. -/
theorem C247_order_counts :
    (BK.build "abc".toList ["x".toList, "xy".toList, "abcd".toList] >>= fun t =>
      BK.search t "abcd".toList 0) = .ok (2, ["abcd".toList]) ∧
    (BK.build "abcd".toList ["abc".toList, "x".toList, "xy".toList] >>= fun t =>
      BK.search t "abcd".toList 0) = .ok (1, ["abcd".toList]) := by decide +kernel

/-- With a larger `k` more nodes are visited, still fewer than there are. -/
example : (BK.build "banana".toList ["bandana".toList, "cabana".toList, "x".toList, "xy".toList] >>= fun t =>
      BK.search t "banana".toList 1) = .ok (2, ["banana".toList, "bandana".toList]) ∧
    (BK.build "banana".toList ["bandana".toList, "cabana".toList, "x".toList, "xy".toList] >>= fun t =>
      BK.search t "banana".toList 2) = .ok (3, ["banana".toList, "bandana".toList, "cabana".toList]) ∧
    Function.Injective (fun c : Char => (c, c)) := by
  refine ⟨by decide +kernel, by decide +kernel, fun a b h => congrArg Prod.fst h⟩

end Edit
end Verif
