import Verif.Dawg.CloneModel
import Verif.Dawg.OrigProps

/-!
# C245: copies and equality of nodes of a word graph
-/

namespace Verif
namespace Dawg

open DawgSpec

section Clone

variable {α δ : Type} [LinearOrder α]

/-- The node reached from the root by reading a word along the dictionaries of edges. -/
def Graph.nodeAt (g : Graph α δ) (u : List α) : Option ℕ :=
  DawgSpec.read (fun z c => Dict.get? (g.heap z).edges c) g.root u

theorem nodeAt_eq_run (g : Graph α δ) (u : List α) : g.nodeAt u = g.heap.run g.root u := by
  have : ∀ x, DawgSpec.read (fun z c => Dict.get? (g.heap z).edges c) x u = g.heap.run x u := by
    induction u with
    | nil => intro x; rfl
    | cons c u ih =>
      intro x
      unfold DawgSpec.read Heap.run
      change (g.heap.edge x c).bind _ = _
      cases g.heap.edge x c with
      | none => rfl
      | some y => exact ih y
  exact this _

theorem copy_edges (e : Dict α ℕ) (n : Node α) :
    e.foldl (fun n p => { n with edges := Dict.set n.edges p.1 p.2 }) n =
      { n with edges := e.foldl (fun d p => Dict.set d p.1 p.2) n.edges } := by
  induction e generalizing n with
  | nil => rfl
  | cons p e ih => simp only [List.foldl_cons]; rw [ih]

theorem set_new {d : Dict α ℕ} {k : α} {v : ℕ} (h : k ∉ Dict.keys d) : Dict.set d k v = d ++ [(k, v)] := by
  induction d with
  | nil => rfl
  | cons p d ih =>
    simp only [Dict.keys_cons, List.mem_cons, not_or] at h
    rw [Dict.set, if_neg (fun e => h.1 e.symm), ih h.2]
    rfl

theorem foldl_set_self (e : Dict α ℕ) : ∀ d : Dict α ℕ, (Dict.keys (d ++ e)).Nodup →
    e.foldl (fun d p => Dict.set d p.1 p.2) d = d ++ e := by
  induction e with
  | nil => intro d _; simp
  | cons p e ih =>
    intro d h
    have hp : p.1 ∉ Dict.keys d := by
      unfold Dict.keys at h ⊢
      rw [List.map_append, List.nodup_append] at h
      intro hm
      exact h.2.2 _ hm p.1 (by simp) rfl
    rw [List.foldl_cons, set_new hp, ih _ (by simpa using h)]
    simp

/-- Reading does not see an object that no used node has an edge to. -/
theorem iterNode_put {h h' : Heap α} (S : ℕ → Prop)
    (hS : ∀ z c z', S z → h.edge z c = some z' → S z') (hk : ∀ x, (Dict.keys (h x).edges).Nodup)
    (he : ∀ z, S z → h' z = h z) (f : ℕ) : ∀ z, S z → iterNode f h' z = iterNode f h z := by
  induction f with
  | zero => intro z _; rfl
  | succ f ih =>
    intro z hz
    simp only [iterNode]
    rw [he z hz]
    have : (sortEdges (h z).edges).mapM (fun e => do
          let ws ← iterNode f h' e.2
          return ws.map (e.1 :: ·)) =
        (sortEdges (h z).edges).mapM (fun e => do
          let ws ← iterNode f h e.2
          return ws.map (e.1 :: ·)) := by
      have hm : ∀ e ∈ sortEdges (h z).edges, S e.2 := by
        intro e hm
        exact hS z e.1 e.2 hz ((mem_sortEdges_iff (hk z)).mp hm)
      generalize sortEdges (h z).edges = l at hm
      induction l with
      | nil => rfl
      | cons e l ihl =>
        simp only [List.mapM_cons]
        rw [ih e.2 (hm e (by simp)), ihl (fun x hx => hm x (by simp [hx]))]
    rw [this]

theorem clone_ok {g : Graph α δ} (hg : Core g) (x : ℕ) :
    g.clone x = .ok ({ g with heap := g.heap.put g.nextId (g.heap x), nextId := g.nextId + 1 }, g.nextId) := by
  have hc := hg.clean x
  unfold Graph.clone
  rw [hc.1, hc.2]
  simp only [Option.isSome_none, Bool.false_eq_true, if_false]
  rw [copy_edges, foldl_set_self _ _ (by simpa [Node.new] using hg.keysNodup x)]
  have e : ({ Node.new with
      terminal := (g.heap x).terminal
      edges := [] ++ (g.heap x).edges } : Node α) = g.heap x := by
    revert hc
    cases g.heap x
    simp only [Node.new, List.nil_append, Node.mk.injEq, true_and]
    exact fun h => ⟨h.1.symm, h.2.symm⟩
  rw [show (Node.new : Node α).edges = [] from rfl, e]

/-- C245: before `finalize`, cloning a node of a graph succeeds and gives a new object, outside the
graph and with the same words; nothing else changes. Edges later added to the clone do not change the
words of the graph. -/
theorem C245_clone (ps : List (List α × δ)) (u : List α) (x : ℕ)
    (hx : (Graph.build ps).nodeAt u = some x) :
    ∃ g' y, (Graph.build ps).clone x = .ok (g', y) ∧
      (∀ v, (Graph.build ps).nodeAt v ≠ some y ∧ g'.nodeAt v ≠ some y) ∧
      (∀ z, z ≠ y → g'.heap z = (Graph.build ps).heap z) ∧
      (∀ f, iterNode f g'.heap y = iterNode f (Graph.build ps).heap x) ∧
      (∀ f, g'.keys f = (Graph.build ps).keys f) ∧
      (∀ f c t, Graph.keys f { g' with heap := g'.heap.link y c t } = (Graph.build ps).keys f) := by
  obtain ⟨hinv, -⟩ := build_inv ps
  have hg := hinv.core
  generalize Graph.build ps = g at hx hg hinv
  rw [nodeAt_eq_run] at hx
  have hS := hg.closed
  have hux : g.Used x := hg.run_used hx
  have hlt : ∀ z, g.Used z → z ≠ g.nextId := fun z hz => Nat.ne_of_lt (hg.used_lt hz)
  have hput : ∀ z, z ≠ g.nextId → (g.heap.put g.nextId (g.heap x)) z = g.heap z := by
    intro z hz; simp [Heap.put, hz]
  have hself : (g.heap.put g.nextId (g.heap x)) g.nextId = g.heap x := by simp [Heap.put]
  refine ⟨_, _, clone_ok hg x, ?_, hput, ?_, ?_, ?_⟩
  · intro v
    rw [nodeAt_eq_run, nodeAt_eq_run]
    have h1 : g.heap.run g.root v ≠ some g.nextId :=
      fun h => hlt _ (hg.run_used h) rfl
    refine ⟨h1, ?_⟩
    have h2 : ∀ z, g.Used z → (g.heap.put g.nextId (g.heap x)).run z v = g.heap.run z v := by
      clear h1
      induction v with
      | nil => intro z _; rfl
      | cons c v ih =>
        intro z hz
        simp only [Heap.run]
        have : (g.heap.put g.nextId (g.heap x)).edge z c = g.heap.edge z c := by
          unfold Heap.edge; rw [hput z (hlt z hz)]
        rw [this]
        cases he : g.heap.edge z c with
        | none => rfl
        | some y => exact ih y (hS z c y hz he)
    simp only
    rw [h2 g.root (Core.used_root g)]
    exact h1
  · intro f
    cases f with
    | zero => rfl
    | succ f =>
      have ih := iterNode_put g.Used hS hg.keysNodup (fun z hz => hput z (hlt z hz)) f
      simp only [iterNode, hself]
      have hm : ∀ e ∈ sortEdges (g.heap x).edges, g.Used e.2 := fun e hm =>
        hS x e.1 e.2 hux ((mem_sortEdges_iff (hg.keysNodup x)).mp hm)
      generalize sortEdges (g.heap x).edges = l at hm
      have : l.mapM (fun e => do
            let ws ← iterNode f (g.heap.put g.nextId (g.heap x)) e.2
            return ws.map (e.1 :: ·)) =
          l.mapM (fun e => do
            let ws ← iterNode f g.heap e.2
            return ws.map (e.1 :: ·)) := by
        induction l with
        | nil => rfl
        | cons e l ihl =>
          simp only [List.mapM_cons]
          rw [ih e.2 (hm e (by simp)), ihl (fun x hx => hm x (by simp [hx]))]
      rw [this]
  · intro f
    exact iterNode_put g.Used hS hg.keysNodup (fun z hz => hput z (hlt z hz)) f _ (Core.used_root g)
  · intro f c t
    refine iterNode_put g.Used hS hg.keysNodup (fun z hz => ?_) f _ (Core.used_root g)
    rw [← hput z (hlt z hz)]
    simp [Heap.link, Heap.put, hlt z hz]

/-- C245: after `finalize`, cloning any node of the graph raises `AssertionError`. -/
theorem C245_clone_final (ps : List (List α × δ)) (limit : ℕ) (h0 : 0 < limit)
    (hlim : ∀ p ∈ kept ps, p.1.length < limit) :
    ∃ g, (Graph.build ps).finalize limit = .ok g ∧
      ∀ u x, g.nodeAt u = some x → g.clone x = .error .assertionError := by
  obtain ⟨hinv, -⟩ := build_inv ps
  obtain ⟨g0, g, hg, hR⟩ := hinv.finalize hlim h0
  refine ⟨g, hg, ?_⟩
  intro u x hx
  rw [nodeAt_eq_run, hR.root, run_congr (h := g0.heap) (fun z c => by
    unfold Heap.edge; rw [hR.final.edges])] at hx
  unfold Graph.clone
  rw [hR.final.done x ⟨u, hx⟩]
  simp [doneNode]

end Clone

section Eq

variable {δ : Type}

/-- C245: in a finalized graph, two nodes reached by reading words are equal (`__eq__`) exactly when they
are the same object, and exactly when the two words have the same completions among the stored words;
equal nodes have equal hashes. -/
theorem C245_eq_final (printable : Char → Bool) (hash : List Char → ℤ) (ps : List (List Char × δ))
    (limit : ℕ) (h0 : 0 < limit) (hlim : ∀ p ∈ kept ps, p.1.length < limit) :
    ∃ g, (Graph.build ps).finalize limit = .ok g ∧
      ∀ u u' x x', g.nodeAt u = some x → g.nodeAt u' = some x' →
        ((g.heap x).eq printable (g.heap x') = true ↔ x = x') ∧
        ((g.heap x).eq printable (g.heap x') = true ↔
          residual ((kept ps).map Prod.fst) u = residual ((kept ps).map Prod.fst) u') ∧
        ((g.heap x).eq printable (g.heap x') = true →
          (g.heap x).hash hash printable = (g.heap x').hash hash printable) := by
  obtain ⟨hinv, -⟩ := build_inv ps
  obtain ⟨g0, g, hg, hR⟩ := hinv.finalize hlim h0
  refine ⟨g, hg, ?_⟩
  intro u u' x x' hx hx'
  have hrun : ∀ v, g.nodeAt v = g0.heap.run g0.root v := by
    intro v
    rw [nodeAt_eq_run, hR.root, run_congr (h := g0.heap) (fun z c => by
      unfold Heap.edge; rw [hR.final.edges])]
  rw [hrun] at hx hx'
  -- a longer and longer word if the root had the words of another node
  have hroot : ∀ p : List Char, p ≠ [] → (residual ((kept ps).map Prod.fst) p).Nonempty →
      residual ((kept ps).map Prod.fst) p ≠ residual ((kept ps).map Prod.fst) [] := by
    intro p hp hn he
    have : ∀ n, ∃ w ∈ residual ((kept ps).map Prod.fst) p, n ≤ w.length := by
      intro n
      induction n with
      | zero => exact hn.imp fun w hw => ⟨hw, Nat.zero_le _⟩
      | succ n ih =>
        obtain ⟨w, hw, hl⟩ := ih
        refine ⟨p ++ w, ?_, ?_⟩
        · rw [he]; exact hw
        · have := List.length_pos_iff.mpr hp
          simp; omega
    obtain ⟨w, hw, hl⟩ := this limit
    rw [he] at hw
    obtain ⟨q, hq, hqw⟩ := List.mem_map.mp hw
    have := hlim q hq
    rw [hqw] at this
    simp at this
    omega
  have hne : ∀ {v z}, g0.heap.run g0.root v = some z → v ≠ [] →
      (residual ((kept ps).map Prod.fst) v).Nonempty := by
    intro v z hz hv
    rw [← hR.lang_residual hz]
    exact hR.core.live z (hR.path_min hz hv)
  have hres : residual ((kept ps).map Prod.fst) u = residual ((kept ps).map Prod.fst) u' → x = x' := by
    intro he
    by_cases hu : u = []
    · by_cases hu' : u' = []
      · rw [hu] at hx; rw [hu'] at hx'
        exact Option.some.inj (hx.symm.trans hx')
      · rw [hu] at he
        exact absurd he.symm (hroot u' hu' (hne hx' hu'))
    · by_cases hu' : u' = []
      · rw [hu'] at he
        exact absurd he (hroot u hu (hne hx hu))
      · refine hR.lang_inj (hR.path_min hx hu) (hR.path_min hx' hu') ?_
        rw [hR.lang_residual hx, hR.lang_residual hx', he]
  have heq : (g.heap x).eq printable (g.heap x') = true →
      residual ((kept ps).map Prod.fst) u = residual ((kept ps).map Prod.fst) u' := by
    intro h
    have h := of_decide_eq_true h
    rw [C144_str_injective printable _ _ (by rw [hR.final.edges]; exact hR.core.keysNodup x)
      (by rw [hR.final.edges]; exact hR.core.keysNodup x')] at h
    rw [hR.final.term, hR.final.term, hR.final.edges, hR.final.edges] at h
    rw [← hR.lang_residual hx, ← hR.lang_residual hx']
    ext w
    change g0.heap.acc x w ↔ g0.heap.acc x' w
    cases w with
    | nil => rw [acc_nil, acc_nil, h.1]
    | cons c w =>
      rw [acc_cons, acc_cons]
      have : g0.heap.edge x c = g0.heap.edge x' c := h.2 c
      rw [this]
  have hback : x = x' → (g.heap x).eq printable (g.heap x') = true := by
    rintro rfl
    simp [Node.eq]
  refine ⟨⟨fun h => hres (heq h), hback⟩, ⟨heq, fun h => hback (hres h)⟩, fun h => ?_⟩
  unfold Node.hash
  rw [of_decide_eq_true h]

/-- C245: a clone is equal to the original, though it is another object. -/
theorem C245_clone_eq (printable : Char → Bool) (ps : List (List Char × δ)) (u : List Char) (x : ℕ)
    (hx : (Graph.build ps).nodeAt u = some x) :
    ∃ g' y, (Graph.build ps).clone x = .ok (g', y) ∧ y ≠ x ∧
      (g'.heap y).eq printable (g'.heap x) = true := by
  obtain ⟨hinv, -⟩ := build_inv ps
  have hg := hinv.core
  generalize Graph.build ps = g at hx hg hinv
  rw [nodeAt_eq_run] at hx
  have hne : x ≠ g.nextId := Nat.ne_of_lt (hg.used_lt (hg.run_used hx))
  refine ⟨_, _, clone_ok hg x, hne.symm, ?_⟩
  simp [Node.eq, Heap.put, hne]

/-- C245: before `finalize` equality is not "the same words": after inserting "ax" and "bx" the nodes for
"a" and "b" have the same completions and differ, while those for "ax" and "bx" are equal and different
objects. -/
theorem C245_eq_unfinished (printable : Char → Bool) :
    ∃ x x' y y', let g : Graph Char Unit := Graph.build [(['a', 'x'], ()), (['b', 'x'], ())]
      g.nodeAt ['a'] = some x ∧ g.nodeAt ['b'] = some x' ∧
      iterNode 3 g.heap x = iterNode 3 g.heap x' ∧ (g.heap x).eq printable (g.heap x') = false ∧
      g.nodeAt ['a', 'x'] = some y ∧ g.nodeAt ['b', 'x'] = some y' ∧
      y ≠ y' ∧ (g.heap y).eq printable (g.heap y') = true := by
  refine ⟨1, 3, 2, 4, by decide +kernel, by decide +kernel, by decide +kernel, ?_, by decide +kernel,
    by decide +kernel, by decide, ?_⟩
  · unfold Node.eq
    rw [decide_eq_false_iff_not, nodeText_eq_iff]
    decide +kernel
  · unfold Node.eq
    rw [decide_eq_true_iff, nodeText_eq_iff]
    decide +kernel

/-- Both hypotheses of `C245_eq_final` met, with two words reaching one node. -/
example : ∃ g : Graph Char Unit,
    (Graph.build [(['a', 'x'], ()), (['b', 'x'], ())]).finalize 3 = .ok g ∧
      g.nodeAt ['a'] = g.nodeAt ['b'] ∧ (g.nodeAt ['a']).isSome ∧ g.nodeAt ['a'] ≠ g.nodeAt [] :=
  ⟨_, rfl, by decide +kernel, by decide +kernel, by decide +kernel⟩

end Eq

end Dawg
end Verif
