import Verif.Dawg.MinLemmas

/-!
# Properties of the word graph (experiments/dawg.py)
-/

namespace Verif
namespace Dawg

open DawgSpec

variable {α δ : Type} [LinearOrder α]

/-! ## C80: what is stored -/

/-- C80: whatever calls of `insert` were made, in any order, the words of the graph are the words of
the accepted calls, in the order of insertion, each paired with its own data; whether or not
`finalize` was called. The bound is the recursion limit. -/
theorem C80_keys_items (ps : List (List α × δ)) (limit : ℕ) (h0 : 0 < limit)
    (hlim : ∀ p ∈ kept ps, p.1.length < limit) :
    (Graph.build ps).keys limit = .ok ((kept ps).map Prod.fst) ∧
    (Graph.build ps).items limit = .ok (kept ps) ∧
    ∃ g, (Graph.build ps).finalize limit = .ok g ∧
      g.keys limit = .ok ((kept ps).map Prod.fst) ∧ g.items limit = .ok (kept ps) ∧
      g.data.length = (kept ps).length := by
  obtain ⟨hinv, -⟩ := build_inv ps
  have hlen : ∀ w ∈ (kept ps).map Prod.fst, w.length < limit := by
    intro w hw
    obtain ⟨p, hp, rfl⟩ := List.mem_map.mp hw
    exact hlim p hp
  have hzip : ((kept ps).map Prod.fst).zip ((kept ps).map Prod.snd) = kept ps := by
    rw [List.zip_map']
    simp
  have hk : (Graph.build ps).keys limit = .ok ((kept ps).map Prod.fst) := by
    unfold Graph.keys
    rw [iterNode_ok hinv.core.keysNodup (hinv.core.depth hinv.pathLive hinv.lang hlen h0),
      hinv.core.wordsOf_eq hinv.lang hinv.sorted hlen]
  obtain ⟨g0, g, hg, hR⟩ := hinv.finalize hlim h0
  have hedge : ∀ z c, g.heap.edge z c = g0.heap.edge z c := by
    intro z c
    unfold Heap.edge
    rw [hR.final.edges]
  have hKeys : KeysOk g.heap := by
    intro x
    rw [hR.final.edges]
    exact hR.core.keysNodup x
  have hrun : ∀ z w, g.heap.run z w = g0.heap.run z w := fun z w => run_congr hedge z w
  have hk' : g.keys limit = .ok ((kept ps).map Prod.fst) := by
    unfold Graph.keys
    rw [iterNode_ok hKeys]
    · congr 1
      refine eq_of_sorted (wordsOf_sorted hKeys _ _) hinv.sorted ?_
      intro w
      rw [mem_wordsOf hKeys, hR.root, ← hR.lang]
      constructor
      · rintro ⟨⟨y, hy, ht⟩, -⟩
        exact ⟨y, (hrun _ _).symm.trans hy, (hR.final.term y).symm.trans ht⟩
      · intro hw
        refine ⟨?_, hlen w ((hR.lang w).mp hw)⟩
        obtain ⟨y, hy, ht⟩ := hw
        exact ⟨y, (hrun _ _).trans hy, (hR.final.term y).trans ht⟩
    · intro w y hw
      rw [hrun, hR.root] at hw
      exact hR.depth w y hw
  refine ⟨hk, ?_, g, hg, hk', ?_, by rw [hR.data]; simp⟩
  · unfold Graph.items
    rw [hk, hinv.data]
    simp only [hzip]
  · unfold Graph.items
    rw [hk', hR.data]
    simp only [hzip]

/-- C80: strictly increasing non-empty words are all accepted. -/
theorem C80_increasing_all_kept (ps : List (List α × δ)) (hs : (ps.map Prod.fst).Pairwise (· < ·))
    (hne : ∀ p ∈ ps, p.1 ≠ []) : kept ps = ps := by
  induction ps using List.reverseRecOn with
  | nil => rfl
  | append_singleton ps p ih =>
    rw [List.map_append, List.pairwise_append] at hs
    have h1 := ih hs.1 (fun q hq => hne q (by simp [hq]))
    have h2 : kept (ps ++ [p]) = if (((kept ps).getLast?.map Prod.fst).getD []) < p.1 then kept ps ++ [p]
      else kept ps := by
      unfold kept
      rw [List.foldl_append]
      rfl
    rw [h2, h1, if_pos]
    cases hl : ps.getLast? with
    | none =>
      simp only [Option.map_none, Option.getD_none]
      have := hne p (by simp)
      cases hp : p.1 with
      | nil => exact absurd hp this
      | cons a l => simp
    | some q =>
      simp only [Option.map_some, Option.getD_some]
      exact hs.2.2 q.1 (List.mem_map.mpr ⟨q, List.mem_of_getLast? hl, rfl⟩) p.1 (by simp)

/-- C80: a call is rejected with `AssertionError` exactly when its word is not greater than the last
accepted one. -/
theorem C80_insert_rejects (ps : List (List α × δ)) (w : List α) (d : δ) :
    ((Graph.build ps).insert w d = .error .assertionError ↔
      w ≤ ((kept ps).getLast?.map Prod.fst).getD []) ∧
    (((kept ps).getLast?.map Prod.fst).getD [] < w ↔ ∃ g, (Graph.build ps).insert w d = .ok g) := by
  rw [← (build_inv ps).2]
  unfold Graph.insert
  by_cases h : (Graph.build ps).previousWord < w
  · rw [if_pos h]
    refine ⟨⟨fun h' => (by cases h'), fun h' => absurd h (not_lt.mpr h')⟩, ⟨fun _ => ⟨_, rfl⟩, fun _ => h⟩⟩
  · rw [if_neg h]
    exact ⟨⟨fun _ => not_lt.mp h, fun _ => rfl⟩, ⟨fun h' => absurd h' h, fun ⟨g, hg⟩ => by cases hg⟩⟩

/-- C80: a second `finalize` changes nothing. -/
theorem C80_finalize_twice (ps : List (List α × δ)) (limit limit' : ℕ) (h0 : 0 < limit) (h0' : 0 < limit')
    (hlim : ∀ p ∈ kept ps, p.1.length < limit) :
    ∃ g, (Graph.build ps).finalize limit = .ok g ∧ g.finalize limit' = .ok g := by
  obtain ⟨hinv, -⟩ := build_inv ps
  obtain ⟨m1, m2, m3⟩ := hinv.core.minimizeN hinv.pathLive ((Graph.build ps).unchecked.length - 0) (by omega)
  obtain ⟨g0, g, hg, hR⟩ := hinv.finalize hlim h0
  refine ⟨g, hg, ?_⟩
  have hu : g.unchecked = [] := by
    unfold Graph.finalize at hg
    have hmu : (Graph.build ps).minimizeUnchecked 0 =
      (Graph.build ps).minimizeN ((Graph.build ps).unchecked.length - 0) := rfl
    simp only [hmu] at hg
    split at hg
    · cases hg
    · cases hg
      simp only
      rw [m2]
      simp
  have hmin : g.minimizeUnchecked 0 = g := by
    unfold Graph.minimizeUnchecked
    rw [hu]
    rfl
  unfold Graph.finalize
  simp only
  rw [hmin]
  obtain ⟨l, rfl⟩ : ∃ l, limit' = l + 1 := ⟨limit' - 1, by omega⟩
  rw [finalizeNode_succ, if_pos]
  rw [hR.root, hR.final.done _ (Heap.Reach.refl _ _)]
  rfl

/-- Two words with a common tail, a rejected call and a prefix. -/
example : (kept [([1, 2], 'a'), ([1], 'x'), ([1, 2, 3], 'b'), ([], 'y'), ([2, 3], 'c')] :
      List (List ℕ × Char)) = [([1, 2], 'a'), ([1, 2, 3], 'b'), ([2, 3], 'c')] ∧
    (Graph.build [([1, 2], 'a'), ([1], 'x'), ([1, 2, 3], 'b'), ([], 'y'), ([2, 3], 'c')] :
      Graph ℕ Char).items 4 = .ok [([1, 2], 'a'), ([1, 2, 3], 'b'), ([2, 3], 'c')] := by
  decide +kernel

/-! ## C81: positions -/

/-- C81: after `finalize`, the position of a stored word is its number in the order of insertion;
`lookup` gives its data, `in` is true and `get_index` is the inverse of `index`. For any other word
`index` gives -1, `lookup` gives `None` and `in` is false; positions past the end raise
`AssertionError`. -/
theorem C81_index_lookup (ps : List (List α × δ)) (limit : ℕ) (h0 : 0 < limit)
    (hlim : ∀ p ∈ kept ps, p.1.length < limit) :
    ∃ g, (Graph.build ps).finalize limit = .ok g ∧
      (∀ (i : ℕ) p, (kept ps)[i]? = some p →
        g.index p.1 = .ok (i : ℤ) ∧ g.lookup p.1 = .ok (some p.2) ∧ g.contains p.1 = .ok true ∧
        g.getIndex limit (i : ℤ) = .ok (some p.1)) ∧
      (∀ w, w ∉ (kept ps).map Prod.fst →
        g.index w = .ok (-1) ∧ g.lookup w = .ok none ∧ g.contains w = .ok false) ∧
      (∀ i : ℤ, (kept ps).length ≤ i → g.getIndex limit i = .error .assertionError) := by
  obtain ⟨hinv, -⟩ := build_inv ps
  obtain ⟨g0, g, hg, hR⟩ := hinv.finalize hlim h0
  refine ⟨g, hg, ?_, ?_, ?_⟩
  · intro i p hp
    have hw : ((kept ps).map Prod.fst)[i]? = some p.1 := by rw [List.getElem?_map, hp]; rfl
    have hd : g.data[i]? = some p.2 := by rw [hR.data, List.getElem?_map, hp]; rfl
    have hidx : g.index p.1 = .ok (i : ℤ) := by
      unfold Graph.index
      rw [hR.root]
      rcases indexLoop_ok hR.core.keysNodup hR.final p.1 limit g0.root 0 hR.depth (le_refl _)
        (Heap.Reach.refl _ _) with ⟨j, hj, he⟩ | ⟨hn, -⟩
      · rw [he]
        rw [hR.words] at hj
        have hnd : ((kept ps).map Prod.fst).Nodup := hinv.sorted.imp (fun h => ne_of_lt h)
        have hlt := (List.getElem?_eq_some_iff.mp hw).1
        have := (List.getElem?_inj hlt hnd).mp (hw.trans hj.symm)
        rw [this]
        simp
      · exact absurd ((hR.lang _).mpr (List.mem_of_getElem? hw)) hn
    refine ⟨hidx, ?_, ?_, ?_⟩
    · unfold Graph.lookup
      rw [hidx]
      simp only
      rw [if_pos (by omega), Int.toNat_natCast, pyGet, hd]
    · unfold Graph.contains
      rw [hidx]
      simp
    · unfold Graph.getIndex
      have hlt := (List.getElem?_eq_some_iff.mp hd).1
      rw [if_pos (by exact_mod_cast hlt), hR.root]
      exact getNode_ok hR.core.keysNodup hR.final limit g0.root hR.depth (le_refl _)
        (Heap.Reach.refl _ _) i p.1 (by rw [hR.words]; exact hw)
  · intro w hw
    have hidx : g.index w = .ok (-1) := by
      unfold Graph.index
      rw [hR.root]
      rcases indexLoop_ok hR.core.keysNodup hR.final w limit g0.root 0 hR.depth (le_refl _)
        (Heap.Reach.refl _ _) with ⟨j, hj, he⟩ | ⟨-, he⟩
      · rw [hR.words] at hj
        exact absurd (List.mem_of_getElem? hj) hw
      · exact he
    refine ⟨hidx, ?_, ?_⟩
    · unfold Graph.lookup; rw [hidx]; rfl
    · unfold Graph.contains; rw [hidx]; rfl
  · intro i hi
    unfold Graph.getIndex
    rw [if_neg]
    rw [hR.data, List.length_map]
    omega

/-! ## C82: minimality -/

/-- C82: after `finalize`, `count_nodes` is the number of different non-empty sets of completions of
non-empty prefixes. -/
theorem C82_count_nodes (ps : List (List α × δ)) (limit : ℕ) (h0 : 0 < limit)
    (hlim : ∀ p ∈ kept ps, p.1.length < limit) :
    ∃ g, (Graph.build ps).finalize limit = .ok g ∧ ∃ Rs : List (Set (List α)), Rs.Nodup ∧
      (∀ R, R ∈ Rs ↔ ∃ p, p ≠ [] ∧ R = residual ((kept ps).map Prod.fst) p ∧ R.Nonempty) ∧
      g.countNodes = Rs.length := by
  obtain ⟨hinv, -⟩ := build_inv ps
  obtain ⟨g0, g, hg, hR⟩ := hinv.finalize hlim h0
  obtain ⟨h1, h2⟩ := hR.languages
  refine ⟨g, hg, _, h1, h2, ?_⟩
  unfold Graph.countNodes
  rw [hR.mini]
  simp [Dict.values]

/-- C82: and `count_edges` is the number of different pairs of such a set and a first letter. -/
theorem C82_count_edges (ps : List (List α × δ)) (limit : ℕ) (h0 : 0 < limit)
    (hlim : ∀ p ∈ kept ps, p.1.length < limit) :
    ∃ g, (Graph.build ps).finalize limit = .ok g ∧ ∃ Es : List (Set (List α) × α), Es.Nodup ∧
      (∀ R c, (R, c) ∈ Es ↔
        ∃ p, p ≠ [] ∧ R = residual ((kept ps).map Prod.fst) p ∧ ∃ v, c :: v ∈ R) ∧
      g.countEdges = .ok Es.length := by
  obtain ⟨hinv, -⟩ := build_inv ps
  obtain ⟨g0, g, hg, hR⟩ := hinv.finalize hlim h0
  obtain ⟨h1, h2⟩ := hR.edgePairs
  refine ⟨g, hg, _, h1, h2, ?_⟩
  rw [hR.countEdges]
  simp [List.length_flatMap]

/-- C82: no deterministic automaton accepting exactly the stored words has fewer states than
`count_nodes` plus one for the root. -/
theorem C82_minimal (ps : List (List α × δ)) (limit : ℕ) (h0 : 0 < limit)
    (hlim : ∀ p ∈ kept ps, p.1.length < limit) :
    ∃ g, (Graph.build ps).finalize limit = .ok g ∧
      ∀ (Q : Type) (step : Q → α → Option Q) (q0 : Q) (final : Q → Prop) (qs : List Q),
        (∀ w, w ∈ (kept ps).map Prod.fst ↔ ∃ q, DawgSpec.read step q0 w = some q ∧ final q) →
        (∀ w q, DawgSpec.read step q0 w = some q → q ∈ qs) → g.countNodes + 1 ≤ qs.length := by
  obtain ⟨hinv, -⟩ := build_inv ps
  obtain ⟨g0, g, hg, hR⟩ := hinv.finalize hlim h0
  refine ⟨g, hg, ?_⟩
  intro Q step q0 final qs hacc hqs
  unfold Graph.countNodes
  rw [hR.mini]
  exact hR.minimal step q0 final hacc qs hqs

/-- Three words of two letters with a common ending need two nodes besides the root. -/
example : ∃ g : Graph ℕ Unit,
    (Graph.build [([1, 5], ()), ([2, 5], ()), ([3, 5], ())]).finalize 3 = .ok g ∧
      g.countNodes = 2 ∧ g.countEdges = .ok 1 :=
  ⟨_, rfl, by decide +kernel, by decide +kernel⟩

/-! ## C83: misuse -/

/-- C83: before `finalize`, asking for the position of a non-empty word raises `TypeError`. -/
theorem C83_index_before_finalize (ps : List (List α × δ)) (c : α) (w : List α) :
    (Graph.build ps).index (c :: w) = .error .typeError ∧
    (Graph.build ps).lookup (c :: w) = .error .typeError ∧
    (Graph.build ps).contains (c :: w) = .error .typeError := by
  have h := ((build_inv ps).1.core.clean (Graph.build ps).root).2
  have hi : (Graph.build ps).index (c :: w) = .error .typeError := by
    simp [Graph.index, indexLoop, h]
  refine ⟨hi, ?_, ?_⟩
  · unfold Graph.lookup; rw [hi]
  · unfold Graph.contains; rw [hi]

/-- C83: negative positions are not rejected and do not count from the end: `get_index(-1)` is the
empty word, which is never stored; below that the result is `None` for the empty graph and a
`TypeError` otherwise. -/
theorem C83_get_index_negative (ps : List (List α × δ)) (limit : ℕ) (h0 : 0 < limit)
    (hlim : ∀ p ∈ kept ps, p.1.length < limit) :
    ∃ g, (Graph.build ps).finalize limit = .ok g ∧
      g.getIndex limit (-1) = .ok (some []) ∧ [] ∉ (kept ps).map Prod.fst ∧
      ∀ i : ℤ, i < -1 →
        g.getIndex limit i = if kept ps = [] then .ok none else .error .typeError := by
  obtain ⟨hinv, -⟩ := build_inv ps
  obtain ⟨g0, g, hg, hR⟩ := hinv.finalize hlim h0
  have hnil : [] ∉ (kept ps).map Prod.fst := fun h => hinv.rootNot ((hinv.lang []).mpr h)
  have hterm : (g.heap g0.root).terminal = false := by
    rw [hR.final.term]
    cases h : (g0.heap g0.root).terminal
    · rfl
    · exact absurd ((hR.lang []).mp ((acc_nil _ _).mpr h)) hnil
  refine ⟨g, hg, ?_, hnil, ?_⟩
  · unfold Graph.getIndex
    rw [if_pos (by omega), hR.root]
    obtain ⟨l, rfl⟩ : ∃ l, limit = l + 1 := ⟨limit - 1, by omega⟩
    simp [getNode, hterm]
  · intro i hi
    unfold Graph.getIndex
    rw [if_pos (by omega), hR.root, getNode_neg hR.core.keysNodup hR.final limit g0.root hR.depth
      (Heap.Reach.refl _ _) i hi]
    have : (g0.heap g0.root).edges = [] ↔ kept ps = [] := by
      constructor
      · intro h
        by_contra hne
        obtain ⟨p, hp⟩ := List.exists_mem_of_ne_nil _ hne
        have hm : p.1 ∈ (kept ps).map Prod.fst := List.mem_map.mpr ⟨p, hp, rfl⟩
        obtain ⟨y, hy, ht⟩ := (hR.lang _).mpr hm
        cases hp1 : p.1 with
        | nil => rw [hp1] at hm; exact hnil hm
        | cons a v =>
          rw [hp1, Heap.run, Heap.edge, h] at hy
          cases hy
      · intro h
        by_contra hne
        obtain ⟨⟨c, y⟩, he⟩ := List.exists_mem_of_ne_nil _ hne
        have hedge : g0.heap.edge g0.root c = some y := Dict.get?_of_mem (hR.core.keysNodup _) he
        obtain ⟨v, hv⟩ := hR.core.live y (hR.path_min (p := [c]) (by rw [Heap.run, hedge]; rfl) (by simp))
        have := (hR.lang (c :: v)).mp ((acc_cons _ _ _ _).mpr ⟨y, hedge, hv⟩)
        rw [h] at this
        simp at this
    by_cases h : kept ps = []
    · rw [if_pos h, if_pos (this.mpr h)]
    · rw [if_neg h, if_neg (fun h' => h (this.mp h'))]

/-- C83: `insert` after `finalize` is not rejected and corrupts the graph: inserting `[1,2,4]` after
finalizing `[1,2,3]` adds the word `[4]`, the inserted word is not found even after another
`finalize`. -/
theorem C83_insert_after_finalize :
    ∃ g g' g'' : Graph ℕ Char, (Graph.build [([1, 2, 3], 'a')]).finalize 10 = .ok g ∧
      g.insert [1, 2, 4] 'b' = .ok g' ∧ g'.finalize 10 = .ok g'' ∧
      g''.keys 10 = .ok [[1, 2, 3], [4]] ∧ g''.items 10 = .ok [([1, 2, 3], 'a'), ([4], 'b')] ∧
      g''.contains [1, 2, 4] = .ok false ∧ g''.contains [4] = .ok false ∧
      g''.getIndex 10 1 = .ok none :=
  ⟨_, _, _, rfl, rfl, rfl, by decide +kernel, by decide +kernel, by decide +kernel, by decide +kernel,
    by decide +kernel⟩

/-- C83: an `insert` after `finalize` can also lose a stored word. -/
theorem C83_insert_after_finalize_loses :
    ∃ g g' : Graph ℕ Char, (Graph.build [([1, 1], 'a')]).finalize 10 = .ok g ∧
      g.insert [1, 1, 1] 'b' = .ok g' ∧ g'.keys 10 = .ok [[1]] :=
  ⟨_, _, rfl, rfl, by decide +kernel⟩

end Dawg
end Verif
