import Verif.Dawg.OrigRead
import Verif.Dawg.Props

/-!
# Properties of the original word graph (experiments/dawg-orig.py) and of the texts of nodes

`hash` is the hash function of strings; nothing is assumed about it.
-/

namespace Verif
namespace Dawg

open DawgSpec

variable {δ : Type}

/-! ## C141: looking up -/

/-- C141: whatever calls of `insert` were made, after `finish` every word of an accepted call is
looked up with its own data and every other word gives `None`. -/
theorem C141_orig_lookup (hash : List Char → ℤ) (ps : List (List Char × δ)) (limit : ℕ)
    (h0 : 0 < limit) (hlim : ∀ p ∈ kept ps, p.1.length < limit) :
    ∃ o, (OGraph.build hash ps).finish hash limit = .ok o ∧
      (∀ p ∈ kept ps, o.lookup p.1 = .ok (some p.2)) ∧
      (∀ w, w ∉ (kept ps).map Prod.fst → o.lookup w = .ok none) := by
  obtain ⟨g, o, hg, ho, hl, -⟩ := finish_ok hash ps limit h0 hlim
  obtain ⟨g', hg', h1, h2, -⟩ := C81_index_lookup ps limit h0 hlim
  rw [hg] at hg'
  cases hg'
  refine ⟨o, ho, ?_, ?_⟩
  · intro p hp
    obtain ⟨i, hi⟩ := List.getElem?_of_mem hp
    rw [hl]
    exact (h1 i p hi).2.1
  · intro w hw
    rw [hl]
    exact (h2 w hw).2.1

/-- C141: a call is rejected exactly when its word is not greater than the last accepted one. -/
theorem C141_orig_insert_rejects (hash : List Char → ℤ) (ps : List (List Char × δ)) (w : List Char)
    (d : δ) : (OGraph.build hash ps).insert hash w d = none ↔
      w ≤ ((kept ps).getLast?.map Prod.fst).getD [] := by
  rw [← (build_inv ps).2, ← (build_sim hash ps).prev]
  unfold OGraph.insert
  by_cases h : w ≤ (OGraph.build hash ps).previousWord
  · rw [if_pos h]; exact ⟨fun _ => h, fun _ => rfl⟩
  · rw [if_neg h]; exact ⟨fun h' => (by cases h'), fun h' => absurd h' h⟩

/-- Words with common beginnings and endings, one call rejected, all texts with the same hash. -/
example : ∃ o : OGraph ℕ,
    (OGraph.build (fun _ => 0) [("cat".toList, 1), ("car".toList, 9), ("cats".toList, 2),
      ("fact".toList, 3), ("facts".toList, 4)]).finish (fun _ => 0) 10 = .ok o ∧
    o.lookup "cats".toList = .ok (some 2) ∧ o.lookup "facts".toList = .ok (some 4) ∧
    o.lookup "car".toList = .ok none ∧ o.lookup "fac".toList = .ok none ∧ o.nodeCount = 6 :=
  ⟨_, rfl, by decide +kernel, by decide +kernel, by decide +kernel, by decide +kernel,
    by decide +kernel⟩

/-! ## C142: minimality and the table of nodes -/

/-- C142: the numbers of nodes and edges are those of dawg.py for the same calls, and no
deterministic automaton accepting exactly the stored words has fewer states. -/
theorem C142_orig_minimal (hash : List Char → ℤ) (ps : List (List Char × δ)) (limit : ℕ)
    (h0 : 0 < limit) (hlim : ∀ p ∈ kept ps, p.1.length < limit) :
    ∃ o g, (OGraph.build hash ps).finish hash limit = .ok o ∧
      (Graph.build ps).finalize limit = .ok g ∧
      o.nodeCount = g.countNodes ∧ g.countEdges = .ok o.edgeCount ∧
      ∀ (Q : Type) (step : Q → Char → Option Q) (q0 : Q) (final : Q → Prop) (qs : List Q),
        (∀ w, w ∈ (kept ps).map Prod.fst ↔ ∃ q, DawgSpec.read step q0 w = some q ∧ final q) →
        (∀ w q, DawgSpec.read step q0 w = some q → q ∈ qs) → o.nodeCount + 1 ≤ qs.length := by
  obtain ⟨g, o, hg, ho, -, hn, he, -⟩ := finish_ok hash ps limit h0 hlim
  obtain ⟨g', hg', hm⟩ := C82_minimal ps limit h0 hlim
  rw [hg] at hg'
  cases hg'
  exact ⟨o, g, ho, hg, hn, he, by rw [hn]; exact hm⟩

/-- C142: the nodes used as keys of the table are changed by later calls nowhere where it matters:
at any time the hash stored with a key is the hash of its present text, and no two keys are equal. -/
theorem C142_orig_keys_stable (hash : List Char → ℤ) (ps : List (List Char × δ)) :
    (∀ p ∈ (OGraph.build hash ps).minimized,
      p.1 = hash ((OGraph.build hash ps).heap p.2).text) ∧
    ((OGraph.build hash ps).minimized.map
      fun p => ((OGraph.build hash ps).heap p.2).text).Nodup := by
  have hs := build_sim hash ps
  obtain ⟨hinv, -⟩ := build_inv ps
  have hsrt := build_srt ps
  constructor
  · intro p hp
    rw [hs.mini] at hp
    obtain ⟨q, -, rfl⟩ := List.mem_map.1 hp
    simp only
    rw [hs.text]
  · rw [hs.mini, List.map_map, List.nodup_iff_pairwise_ne, List.pairwise_map]
    have hn := hinv.core.minNodup
    have hn' : (Graph.build ps).minimized.Pairwise fun a b => a.1 ≠ b.1 :=
      List.pairwise_map.1 hn
    refine hn'.imp_of_mem ?_
    rintro ⟨k, v⟩ ⟨k', v'⟩ h1 h2 hne e
    simp only [Function.comp_apply] at e hne
    rw [hs.text, hs.text, text_eq_iff (hsrt _) (hsrt _)] at e
    have e1 := hinv.core.minKey k v ((Dict.mem_iff_get? hn).1 h1)
    have e2 := hinv.core.minKey k' v' ((Dict.mem_iff_get? hn).1 h2)
    exact hne (by rw [← e1, ← e2, e])

/-- C142: `display` ends and prints every node of the finished graph exactly once, the root first:
as many nodes as `nodeCount` and the root. -/
theorem C142_orig_display (hash : List Char → ℤ) (ps : List (List Char × δ)) (limit : ℕ)
    (h0 : 0 < limit) (hlim : ∀ p ∈ kept ps, p.1.length < limit) :
    ∃ o, (OGraph.build hash ps).finish hash limit = .ok o ∧ ∃ (L : List ℕ) (f0 : ℕ),
      (o.root :: L).Nodup ∧ (∀ x, x ∈ L ↔ x ∈ o.minimized.map Prod.snd) ∧
      L.length = o.nodeCount ∧
      ∀ f, f0 ≤ f → o.display f = some ((o.root :: L).flatMap (nodeLines o.heap)) := by
  obtain ⟨g, o, hg, ho, -, -, -, hn, hr⟩ := finish_ok hash ps limit h0 hlim
  refine ⟨o, ho, ?_⟩
  obtain ⟨f0, r, hw⟩ := walk_ends (refs := fun x => (o.heap x).edges.map Prod.snd) goodPush_pushAll
    (o.root :: o.minimized.map Prod.snd)
    (fun x hx y hy => (hr y).1 (((hr x).2 hx).tail hy)) _ [o.root] []
    (fun x hx => by rw [List.mem_singleton.1 hx]; exact List.mem_cons_self) List.nodup_nil
    (by simp) (le_refl _)
  obtain ⟨a, b, -⟩ := walk_spec goodPush_pushAll o.root f0 [o.root] [] r List.nodup_nil
    (fun x hx => by rw [List.mem_singleton.1 hx]) (by simp) (by simp) (by simp) hw
  have hfirst : [o.root] <+: r := by
    cases f0 with
    | zero => cases hw
    | succ f =>
      rw [walk, if_neg (by simp)] at hw
      exact walk_prefix f _ _ _ hw
  obtain ⟨L, rfl⟩ := hfirst
  have hmem : ∀ x, x ∈ L ↔ x ∈ o.minimized.map Prod.snd := by
    intro x
    have h1 := (b x).trans (hr x)
    rw [List.singleton_append, List.mem_cons, List.mem_cons] at h1
    have h2 : o.root ∉ L := (List.nodup_cons.1 a).1
    have h3 := (List.nodup_cons.1 hn).1
    constructor
    · intro h
      exact (h1.1 (Or.inr h)).resolve_left fun e => h2 (e ▸ h)
    · intro h
      exact (h1.2 (Or.inr h)).resolve_left fun e => h3 (e ▸ h)
  refine ⟨L, f0, a, hmem, ?_, ?_⟩
  · have hp : L.Perm (o.minimized.map Prod.snd) :=
      (List.perm_ext_iff_of_nodup (List.nodup_cons.1 a).2 (List.nodup_cons.1 hn).2).2 hmem
    rw [hp.length_eq, List.length_map]
    rfl
  · intro f hf
    unfold OGraph.display
    rw [displayLoop_walk o.heap f [o.root] [] [] (fun _ => Iff.rfl), walk_more f0 f hf _ _ _ hw]
    rfl

/-- The nodes for two words with the same ending. -/
example : ∃ o : OGraph ℕ, (OGraph.build (fun _ => 0) [("ax".toList, 1), ("bx".toList, 2)]).finish
      (fun _ => 0) 10 = .ok o ∧ o.nodeCount = 2 ∧ o.edgeCount = 1 ∧
    o.display 9 = some ["0: (0_a_1_b_1)".toList, "    a goto 1".toList, "    b goto 1".toList,
      "1: (0_x_2)".toList, "    x goto 2".toList, "2: (1)".toList] :=
  ⟨_, rfl, by decide +kernel, by decide +kernel, by decide +kernel⟩

/-! ## C143: misuse -/

/-- C143: before `finish`, `lookup` of a stored word does not fail but gives the data of another
call: that at the position equal to the number of stored proper prefixes of the word. Other words give
`None`. -/
theorem C143_orig_lookup_unfinished (hash : List Char → ℤ) (ps : List (List Char × δ)) :
    (∀ w ∈ (kept ps).map Prod.fst, ∃ p,
      (kept ps)[(List.range w.length).countP fun i => decide (w.take i ∈ (kept ps).map Prod.fst)]? =
        some p ∧ (OGraph.build hash ps).lookup w = .ok (some p.2)) ∧
    (∀ w, w ∉ (kept ps).map Prod.fst → (OGraph.build hash ps).lookup w = .ok none) := by
  have hs := build_sim hash ps
  obtain ⟨hinv, -⟩ := build_inv ps
  have hshape : Shape (Graph.build ps).heap (OGraph.build hash ps).heap :=
    fun z => ⟨hs.final z, hs.edges z⟩
  constructor
  · intro w hw
    have hz := (lookupFrom_zero hinv.core.keysNodup hshape hs.count w (Graph.build ps).root 0).2
      (fun v => decide (v ∈ (kept ps).map Prod.fst))
      (fun v => by rw [decide_eq_true_iff, hinv.lang]) ((hinv.lang w).2 hw)
    have hlt : ((List.range w.length).countP fun i =>
        decide (w.take i ∈ (kept ps).map Prod.fst)) < (kept ps).length := by
      have hsub : ((List.range w.length).filter fun i =>
          decide (w.take i ∈ (kept ps).map Prod.fst)).map (fun i => w.take i) ++ [w] ⊆
          (kept ps).map Prod.fst := by
        intro v hv
        rcases List.mem_append.1 hv with hv | hv
        · obtain ⟨i, hi, rfl⟩ := List.mem_map.1 hv
          exact decide_eq_true_iff.1 (List.mem_filter.1 hi).2
        · rw [List.mem_singleton.1 hv]; exact hw
      have hnd : (((List.range w.length).filter fun i =>
          decide (w.take i ∈ (kept ps).map Prod.fst)).map (fun i => w.take i) ++ [w]).Nodup := by
        rw [List.nodup_append]
        refine ⟨?_, by simp, ?_⟩
        · refine List.Nodup.map_on ?_ (List.nodup_range.filter _)
          intro i hi j hj e
          have hi := List.mem_range.1 (List.mem_filter.1 hi).1
          have hj := List.mem_range.1 (List.mem_filter.1 hj).1
          have := congrArg List.length e
          simp only [List.length_take] at this
          omega
        · intro v hv v' hv' e
          obtain ⟨i, hi, rfl⟩ := List.mem_map.1 hv
          have hi := List.mem_range.1 (List.mem_filter.1 hi).1
          rw [List.mem_singleton.1 hv'] at e
          have := congrArg List.length e
          simp only [List.length_take] at this
          omega
      have := (List.subperm_of_subset hnd hsub).length_le
      rw [List.length_append, List.length_map, ← List.countP_eq_length_filter,
        List.length_map] at this
      simp only [List.length_singleton] at this
      omega
    refine ⟨_, List.getElem?_eq_getElem hlt, ?_⟩
    unfold OGraph.lookup
    rw [hs.root, hz, Nat.zero_add, readAt, if_pos (by omega), Int.toNat_natCast, hs.data, hinv.data,
      pyGet, List.getElem?_map, List.getElem?_eq_getElem hlt]
    rfl
  · intro w hw
    unfold OGraph.lookup
    rw [hs.root]
    exact (lookupFrom_zero hinv.core.keysNodup hshape hs.count w (Graph.build ps).root 0).1
      (fun h => hw ((hinv.lang w).1 h))

/-- C143: for instance the second of two words, neither a prefix of the other, is looked up with the
data of the first. -/
theorem C143_orig_lookup_wrong (hash : List Char → ℤ) (a b : Char) (hab : a < b) (u v : List Char)
    (d d' : δ) : (OGraph.build hash [(a :: u, d), (b :: v, d')]).lookup (b :: v) = .ok (some d) := by
  have hk : kept [(a :: u, d), (b :: v, d')] = [(a :: u, d), (b :: v, d')] := by
    apply C80_increasing_all_kept
    · simpa using List.Lex.rel hab
    · simp
  obtain ⟨p, hp, h⟩ := (C143_orig_lookup_unfinished hash [(a :: u, d), (b :: v, d')]).1 (b :: v)
    (by rw [hk]; simp)
  rw [hk] at hp
  have h0 : ((List.range (b :: v).length).countP fun i =>
      decide ((b :: v).take i ∈ [(a :: u, d), (b :: v, d')].map Prod.fst)) = 0 := by
    rw [List.countP_eq_zero]
    intro i hi
    have hi := List.mem_range.1 hi
    simp only [List.map_cons, List.map_nil, List.mem_cons, List.not_mem_nil, or_false,
      decide_eq_true_eq]
    rintro (e | e)
    · cases i with
      | zero => simp at e
      | succ i =>
        rw [List.take_succ_cons] at e
        injection e with e _
        exact absurd e (ne_of_gt hab)
    · have := congrArg List.length e
      rw [List.length_take] at this
      omega
  rw [h0] at hp
  cases hp
  exact h

/-- C143: `insert` after `finish` is not rejected, but the counts are not brought up to date even by
another `finish`: a word of the second round is looked up with the data of another. -/
theorem C143_orig_insert_after_finish :
    ∃ o o' : OGraph ℕ, (OGraph.build (fun _ => 0) [("a".toList, 1)]).finish (fun _ => 0) 10 = .ok o ∧
      (((o.call (fun _ => 0) ("bx".toList, 2)).call (fun _ => 0) ("c".toList, 3)).finish
        (fun _ => 0) 10) = .ok o' ∧
      o'.lookup "a".toList = .ok (some 1) ∧ o'.lookup "bx".toList = .ok (some 2) ∧
      o'.lookup "c".toList = .ok (some 2) :=
  ⟨_, _, rfl, rfl, by decide +kernel, by decide +kernel, by decide +kernel⟩

/-! ## C144: texts of nodes -/

/-- C144: two nodes of dawg.py have the same text exactly when both or neither are terminal and they
have the same edges; for any table of printable characters. So the table `minimized_nodes`, keyed by
texts, never confuses different nodes. -/
theorem C144_str_injective (printable : Char → Bool) (n n' : Node Char)
    (hn : (Dict.keys n.edges).Nodup) (hn' : (Dict.keys n'.edges).Nodup) :
    n.text printable = n'.text printable ↔
      n.terminal = n'.terminal ∧ ∀ c, Dict.get? n.edges c = Dict.get? n'.edges c := by
  rw [nodeText_eq_iff]
  unfold Node.key
  rw [Prod.mk.injEq]
  refine and_congr_right fun _ => ?_
  constructor
  · intro h c
    ext y
    rw [← mem_sortEdges_iff hn, ← mem_sortEdges_iff hn', h]
  · exact fun h => sortEdges_eq_of_get? hn hn' h

/-- C144: two nodes of dawg-orig.py have the same text exactly when both or neither are final and
they have the same edges added in the same order. -/
theorem C144_orig_str_injective (f f' : Bool) (es es' : Dict Char ℕ) :
    origText f es = origText f' es' ↔ f = f' ∧ es = es' :=
  ⟨origText_inj, by rintro ⟨rfl, rfl⟩; rfl⟩

/-- C144: but for nodes not built by `insert` the second text depends on the order of the edges. -/
theorem C144_orig_str_order : origText false [('a', 1), ('b', 2)] ≠ origText false [('b', 2), ('a', 1)] := by
  decide +kernel

/-- The texts look as in Python, also with labels that need escapes or look like separators. -/
example : (⟨true, [('b', 12), ('\'', 3), ('\n', 4)], none, none⟩ : Node Char).text (fun _ => true) =
      "DAWGNode(terminal=1, edges={'\\n': 4, \"'\": 3, 'b': 12}".toList ∧
    origText true [('a', 10), ('_', 2)] = "1_a_10___2".toList := by
  decide +kernel

end Dawg
end Verif
