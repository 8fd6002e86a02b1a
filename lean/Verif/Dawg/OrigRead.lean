import Verif.Dawg.OrigLemmas
import Verif.Dawg.MinLemmas
import Verif.Py.Walk

/-!
# Counting and looking up in the original word graph
-/

namespace Verif
namespace Dawg

open DawgSpec

variable {δ : Type} {hash : List Char → ℤ}

/-! ### `numReachable` -/

/-- The heap has the nodes and edges of `h0`. -/
def Shape (h0 : Heap Char) (h : OHeap) : Prop :=
  ∀ z, (h z).final = (h0 z).terminal ∧ (h z).edges = (h0 z).edges

/-- The count of `y` is the number of words from there. -/
def Right (N : ℕ) (h0 : Heap Char) (h : OHeap) (y : ℕ) : Prop :=
  (h y).count = (wordsOf N h0 y).length

/-- A node with a count has right counts below. -/
def CountOk (N : ℕ) (h0 : Heap Char) (h : OHeap) : Prop :=
  ∀ z, (h z).count = 0 ∨ ∀ y, h0.Reach z y → Right N h0 h y

/-- The loop of `numReachable`. -/
def numStep (f : ℕ) (r : OHeap × ℕ) (e : Char × ℕ) : Except PyErr (OHeap × ℕ) := do
  let r' ← numReachable f r.1 e.2
  return (r'.1, r.2 + r'.2)

theorem numReachable_succ (f : ℕ) (h : OHeap) (x : ℕ) : numReachable (f + 1) h x =
    if (h x).count ≠ 0 then .ok (h, (h x).count)
    else (do
      let r ← (h x).edges.foldlM (numStep f) (h, if (h x).final then 1 else 0)
      return (r.1.put x { r.1 x with count := r.2 }, r.2)) := rfl

theorem numReachable_ok {h0 : Heap Char} (hk : KeysOk h0) (N : ℕ) (f : ℕ) :
    ∀ (x : ℕ) (h : OHeap), Depth h0 x f → f ≤ N → Shape h0 h → CountOk N h0 h →
    ∃ h', numReachable f h x = .ok (h', (wordsOf N h0 x).length) ∧ Shape h0 h' ∧ CountOk N h0 h' ∧
      (∀ y, h0.Reach x y → Right N h0 h' y) ∧ (∀ y, Right N h0 h y → Right N h0 h' y) := by
  induction f with
  | zero => intro x h hd; obtain ⟨f', hf⟩ := hd.pos; omega
  | succ f ih =>
    intro x h hd hN hs hc
    rw [numReachable_succ]
    by_cases h0c : (h x).count = 0
    swap
    · have hr := (hc x).resolve_left h0c
      rw [if_pos h0c, hr x (Heap.Reach.refl _ _)]
      exact ⟨h, rfl, hs, hc, hr, fun y hy => hy⟩
    rw [if_neg (not_not.2 h0c)]
    have loop : ∀ (es : List (Char × ℕ)), (∀ e ∈ es, h0.edge x e.1 = some e.2) →
        ∀ (h : OHeap) (n : ℕ), Shape h0 h → CountOk N h0 h →
        ∃ h', es.foldlM (numStep f) (h, n) =
            .ok (h', n + (es.map fun e => (wordsOf N h0 e.2).length).sum) ∧
          Shape h0 h' ∧ CountOk N h0 h' ∧ (∀ e ∈ es, ∀ y, h0.Reach e.2 y → Right N h0 h' y) ∧
          (∀ y, Right N h0 h y → Right N h0 h' y) := by
      intro es
      induction es with
      | nil =>
        intro _ h n hs hc
        exact ⟨h, by simp [pure, Except.pure], hs, hc, by simp, fun y hy => hy⟩
      | cons e es ihe =>
        intro hes h n hs hc
        obtain ⟨h1, e1, s1, c1, r1, m1⟩ := ih e.2 h (hd.child (hes e List.mem_cons_self)) (by omega)
          hs hc
        obtain ⟨h2, e2, s2, c2, r2, m2⟩ := ihe (fun e' he' => hes e' (List.mem_cons_of_mem _ he'))
          h1 (n + (wordsOf N h0 e.2).length) s1 c1
        refine ⟨h2, ?_, s2, c2, ?_, fun y hy => m2 y (m1 y hy)⟩
        · have : numStep f (h, n) e = .ok (h1, n + (wordsOf N h0 e.2).length) := by
            unfold numStep
            rw [e1]
            rfl
          rw [List.foldlM_cons, this]
          change es.foldlM (numStep f) _ = _
          rw [e2, List.map_cons, List.sum_cons, Nat.add_assoc]
        · intro e' he' y hy
          rcases List.mem_cons.1 he' with rfl | he'
          · exact m2 y (r1 y hy)
          · exact r2 e' he' y hy
    have hes : ∀ e ∈ (h x).edges, h0.edge x e.1 = some e.2 := by
      rintro ⟨c, y⟩ he
      rw [(hs x).2] at he
      exact Dict.get?_of_mem (hk x) he
    obtain ⟨h1, e1, s1, c1, r1, m1⟩ := loop (h x).edges hes h (if (h x).final then 1 else 0) hs hc
    have hlen : (if (h x).final then 1 else 0) +
        ((h x).edges.map fun e => (wordsOf N h0 e.2).length).sum = (wordsOf N h0 x).length := by
      rw [wordsOf_unfold hk hd hN, (hs x).1, (hs x).2, List.length_append, List.length_flatMap]
      congr 1
      · split <;> rfl
      · simp only [List.length_map]
        exact (((sortEdges_perm (h0 x).edges).map _).sum_eq).symm
    rw [hlen] at e1
    rw [e1]
    refine ⟨_, rfl, ?_, ?_, ?_, ?_⟩
    · intro z
      simp only [OHeap.put]
      split_ifs with hz
      · subst hz; exact s1 z
      · exact s1 z
    · have hright : ∀ y, Right N h0 h1 y →
          Right N h0 (h1.put x { h1 x with count := (wordsOf N h0 x).length }) y := by
        intro y hy
        unfold Right OHeap.put
        split_ifs with hz
        · rw [hz]
        · exact hy
      intro z
      by_cases hz : z = x
      · right
        rw [hz]
        intro y hy
        rcases reach_cases hy with rfl | ⟨c, y', he, hy'⟩
        · simp [Right, OHeap.put]
        · exact hright y (r1 (c, y') (by rw [(hs x).2]; exact Dict.mem_of_get? he) y hy')
      · rcases c1 z with h | h
        · left
          simp only [OHeap.put, if_neg hz]
          exact h
        · right
          exact fun y hy => hright y (h y hy)
    · intro y hy
      rcases reach_cases hy with rfl | ⟨c, y', he, hy'⟩
      · simp [Right, OHeap.put]
      · have := r1 (c, y') (by rw [(hs x).2]; exact Dict.mem_of_get? he) y hy'
        unfold Right OHeap.put
        simp only
        split_ifs with hz
        · rw [hz]
        · exact this
    · intro y hy
      have := m1 y hy
      unfold Right OHeap.put
      simp only
      split_ifs with hz
      · rw [hz]
      · exact this

/-! ### Looking up -/

theorem origStep_none (h : OHeap) (t : Bool) (c : Char) (es : List (Char × ℕ)) (s : ℕ)
    (hes : ∀ e ∈ es, e.1 ≠ c) : origStep h t c es s = none := by
  induction es generalizing s with
  | nil => rfl
  | cons e es ih =>
    obtain ⟨l, y⟩ := e
    rw [origStep, if_neg (hes (l, y) List.mem_cons_self),
      ih _ fun e he => hes e (List.mem_cons_of_mem _ he)]

theorem origStep_eq (h : OHeap) (hf : Heap Char) (t : Bool) (c : Char) (es : List (Char × ℕ)) (s : ℕ)
    (hes : ∀ e ∈ es, (hf e.2).leafCount = some (h e.2).count) :
    stepEdges hf t c es s = .ok (origStep h t c es s) := by
  induction es generalizing s with
  | nil => rfl
  | cons e es ih =>
    obtain ⟨l, y⟩ := e
    rw [origStep, stepEdges]
    by_cases hl : l = c
    · rw [if_pos hl, if_pos hl.symm]
    · rw [if_neg hl, if_neg (Ne.symm hl), hes (l, y) List.mem_cons_self]
      exact ih _ fun e he => hes e (List.mem_cons_of_mem _ he)

theorem origStep_mem (h : OHeap) (t : Bool) (c : Char) (es : List (Char × ℕ)) (s s' y : ℕ)
    (he : origStep h t c es s = some (s', y)) : (c, y) ∈ es := by
  induction es generalizing s with
  | nil => cases he
  | cons e es ih =>
    obtain ⟨l, z⟩ := e
    rw [origStep] at he
    by_cases hl : l = c
    · rw [if_pos hl] at he
      simp only [Option.some.injEq, Prod.mk.injEq] at he
      rw [← he.2, hl]
      exact List.mem_cons_self
    · rw [if_neg hl] at he
      exact List.mem_cons_of_mem _ (ih _ he)

/-- What `lookup` of dawg.py does with a position. -/
def readAt (data : List δ) (i : ℤ) : Except PyErr (Option δ) :=
  if 0 ≤ i then
    match pyGet data i.toNat with
    | .error e => .error e
    | .ok d => .ok (some d)
  else .ok none

theorem lookupFrom_eq {N : ℕ} {h0 h : Heap Char} {o : OGraph δ} {r : ℕ} (hk : KeysOk h0)
    (hF : Final N h0 h r) (hs : Shape h0 o.heap) (hr : ∀ y, h0.Reach r y → Right N h0 o.heap y)
    (w : List Char) : ∀ x s, h0.Reach r x →
    o.lookupFrom w s x = (indexLoop h w s x).bind (readAt o.data) := by
  induction w with
  | nil =>
    intro x s _
    rw [OGraph.lookupFrom, indexLoop, (hs x).1, hF.term]
    by_cases ht : (h0 x).terminal = true
    · rw [if_pos ht, if_pos ht]
      simp [Except.bind, readAt]
      rfl
    · rw [if_neg ht, if_neg ht]
      rfl
  | cons c w ih =>
    intro x s hx
    have hfe : (h x).finalEdges = some (sortEdges (h0 x).edges) := by rw [hF.done x hx]; rfl
    have hmem : ∀ e ∈ sortEdges (h0 x).edges, h0.edge x e.1 = some e.2 := by
      rintro ⟨c, y⟩ he
      exact (mem_sortEdges_iff (hk x)).mp he
    have hlc : ∀ e ∈ sortEdges (h0 x).edges, (h e.2).leafCount = some (o.heap e.2).count := by
      intro e he
      have hre := hx.trans (Heap.Reach.edge (hmem e he))
      rw [hF.done e.2 hre, hr _ hre]
      rfl
    rw [OGraph.lookupFrom, indexLoop, hfe, (hs x).1, (hs x).2, hF.term]
    simp only
    rw [origStep_eq o.heap h _ c _ s hlc]
    by_cases hh : Dict.has (h0 x).edges c = true
    · rw [if_pos hh]
      cases he : origStep o.heap (h0 x).terminal c (sortEdges (h0 x).edges) s with
      | none => rfl
      | some p =>
        obtain ⟨s', y⟩ := p
        exact ih y s' (hx.trans (Heap.Reach.edge (hmem _ (origStep_mem _ _ _ _ _ _ _ he))))
    · rw [if_neg hh, origStep_none]
      · rfl
      · rintro ⟨l, y⟩ he e
        apply hh
        rw [Dict.has, show Dict.get? (h0 x).edges c = some y from e ▸ hmem (l, y) he]
        rfl

/-- After `finish` the graph answers as dawg.py does after `finalize`. -/
theorem finish_ok (hash : List Char → ℤ) (ps : List (List Char × δ)) (limit : ℕ) (h0 : 0 < limit)
    (hlim : ∀ p ∈ kept ps, p.1.length < limit) :
    ∃ g o, (Graph.build ps).finalize limit = .ok g ∧
      (OGraph.build hash ps).finish hash limit = .ok o ∧
      (∀ w, o.lookup w = g.lookup w) ∧ o.nodeCount = g.countNodes ∧
      g.countEdges = .ok o.edgeCount ∧ (o.root :: o.minimized.map Prod.snd).Nodup ∧
      ∀ y, Walk.Reach (fun x => (o.heap x).edges.map Prod.snd) o.root y ↔
        y ∈ o.root :: o.minimized.map Prod.snd := by
  obtain ⟨hinv, -⟩ := build_inv ps
  obtain ⟨g, hg, hR⟩ := hinv.finalize_of hlim h0
  have hsim := (build_sim hash ps).minimizeN ((Graph.build ps).unchecked.length - 0) hinv.core
    hinv.pathLive (build_srt ps) (by omega)
  have hmu : (Graph.build ps).minimizeUnchecked 0 =
    (Graph.build ps).minimizeN ((Graph.build ps).unchecked.length - 0) := rfl
  have h3 := (hinv.core.minimizeN hinv.pathLive ((Graph.build ps).unchecked.length - 0)
    (by omega)).2.2.data
  rw [← hmu] at hsim h3
  unfold OGraph.finish OGraph.minimize
  rw [(build_sim hash ps).unchecked]
  generalize (OGraph.build hash ps).minimizeN hash ((Graph.build ps).unchecked.length - 0) = o1
    at hsim
  generalize (Graph.build ps).minimizeUnchecked 0 = g0 at hsim hR h3
  have hshape : Shape g0.heap o1.heap := fun z => ⟨hsim.final z, hsim.edges z⟩
  obtain ⟨h', e1, s1, -, r1, -⟩ := numReachable_ok hR.core.keysNodup limit limit g0.root o1.heap
    hR.depth (le_refl _) hshape (fun z => Or.inl (hsim.count z))
  have hd : o1.data = g.data := by rw [hsim.data, h3, hinv.data, hR.data]
  have hmin : ∀ y, y ∈ o1.minimized.map Prod.snd ↔ g0.Min y := by
    intro y
    rw [hsim.mini, List.map_map]
    constructor
    · intro h
      obtain ⟨⟨k, v⟩, hp, rfl⟩ := List.mem_map.1 h
      exact ⟨k, (Dict.mem_iff_get? hR.core.minNodup).1 hp⟩
    · rintro ⟨k, hk⟩
      exact List.mem_map.2 ⟨(k, y), (Dict.mem_iff_get? hR.core.minNodup).2 hk, rfl⟩
  refine ⟨g, { o1 with heap := h' }, hg, ?_, ?_, ?_, ?_, ?_, ?_⟩
  · simp only
    rw [hsim.root, e1]
  · intro w
    have := lookupFrom_eq (o := { o1 with heap := h' }) hR.core.keysNodup hR.final s1 r1 w g0.root 0
      (Heap.Reach.refl _ _)
    rw [← hsim.root] at this
    unfold OGraph.lookup Graph.lookup Graph.index
    rw [hR.root]
    refine this.trans ?_
    rw [hsim.root]
    cases indexLoop g.heap w 0 g0.root with
    | error e => rfl
    | ok i =>
      simp only [Except.bind, readAt, hd]
      rfl
  · unfold OGraph.nodeCount Graph.countNodes
    simp only
    rw [hsim.mini, hR.mini, List.length_map]
  · rw [hR.countEdges]
    congr 1
    unfold OGraph.edgeCount
    simp only
    rw [hsim.mini, List.foldl_map]
    have : ∀ (l : Dict (Bool × List (Char × ℕ)) ℕ) (n : ℕ),
        l.foldl (fun n p => n + (h' p.2).edges.length) n =
          n + (l.map fun p => (sortEdges (g0.heap p.2).edges).length).sum := by
      intro l
      induction l with
      | nil => intro n; rfl
      | cons p l ih =>
        intro n
        rw [List.foldl_cons, ih, List.map_cons, List.sum_cons, (s1 p.2).2,
          (sortEdges_perm (g0.heap p.2).edges).length_eq]
        omega
    rw [this, Nat.zero_add, Dict.values, List.map_map]
    rfl
  · rw [List.nodup_cons]
    constructor
    · simp only
      rw [hmin, hsim.root]
      exact fun h => hR.core.disj _ h (by simp [pathNodes])
    · simp only
      rw [hsim.mini, List.map_map, List.nodup_iff_pairwise_ne, List.pairwise_map]
      have hn := hR.core.minNodup
      have hn' : g0.minimized.Pairwise fun a b => a.1 ≠ b.1 := List.pairwise_map.1 hn
      refine hn'.imp_of_mem ?_
      rintro ⟨k, v⟩ ⟨k', v'⟩ h1 h2 hne e
      have e1 := hR.core.minKey k v ((Dict.mem_iff_get? hn).1 h1)
      have e2 := hR.core.minKey k' v' ((Dict.mem_iff_get? hn).1 h2)
      have e : v = v' := e
      exact hne (by rw [← e1, ← e2, e])
  · intro y
    simp only
    rw [List.mem_cons, hmin, hsim.root]
    constructor
    · intro h
      have : g0.heap.Reach g0.root y := by
        induction h with
        | refl => exact Heap.Reach.refl _ _
        | tail _ he ih =>
          simp only at he
          rw [(s1 _).2] at he
          obtain ⟨⟨c, z⟩, hp, rfl⟩ := List.mem_map.1 he
          exact ih.trans (Heap.Reach.edge (Dict.get?_of_mem (hR.core.keysNodup _) hp))
      obtain ⟨w, hw⟩ := this
      by_cases hne : w = []
      · rw [hne] at hw
        cases hw
        exact Or.inl rfl
      · exact Or.inr (hR.path_min hw hne)
    · intro h
      have hreach : ∀ (w : List Char) (x : ℕ), g0.heap.run x w = some y →
          Walk.Reach (fun x => (h' x).edges.map Prod.snd) x y := by
        intro w
        induction w with
        | nil => intro x hx; cases hx; exact Relation.ReflTransGen.refl
        | cons c w ih =>
          intro x hx
          rw [Heap.run] at hx
          obtain ⟨z, hz, hzy⟩ := Option.bind_eq_some_iff.1 hx
          refine Relation.ReflTransGen.head ?_ (ih z hzy)
          change z ∈ (h' x).edges.map Prod.snd
          rw [(s1 _).2]
          exact List.mem_map.2 ⟨(c, z), Dict.mem_of_get? hz, rfl⟩
      rcases h with rfl | h
      · exact Relation.ReflTransGen.refl
      · obtain ⟨w, hw⟩ := hR.core.reach y h
        exact hreach w _ hw

/-! ### Displaying -/

/-- The way the stack of `display` is filled. -/
def pushAll (_ s l : List ℕ) : List ℕ := l.reverse ++ s

theorem goodPush_pushAll : GoodPush pushAll :=
  ⟨fun _ _ _ _ h => (List.mem_append.1 h).elim (fun h => Or.inr (List.mem_reverse.1 h)) Or.inl,
    fun _ _ _ _ h => List.mem_append_right _ h,
    fun _ _ _ _ h _ => List.mem_append_left _ (List.mem_reverse.2 h)⟩

theorem walk_prefix {refs : ℕ → List ℕ} {push : List ℕ → List ℕ → List ℕ → List ℕ} (f : ℕ) :
    ∀ (s d r : List ℕ), walk refs push f s d = some r → d <+: r := by
  induction f with
  | zero =>
    intro s d r h
    cases s with
    | nil => rw [walk] at h; cases h; exact List.prefix_refl _
    | cons x s => cases h
  | succ f ih =>
    intro s d r h
    cases s with
    | nil => rw [walk] at h; cases h; exact List.prefix_refl _
    | cons x s =>
      rw [walk] at h
      split_ifs at h
      · exact ih _ _ _ h
      · exact (List.prefix_append d [x]).trans (ih _ _ _ h)

theorem displayLoop_walk (h : OHeap) (f : ℕ) : ∀ (s d d' : List ℕ), (∀ x, x ∈ d ↔ x ∈ d') →
    displayLoop h f s d = (walk (fun x => (h x).edges.map Prod.snd) pushAll f s d').map
      fun r => (r.drop d'.length).flatMap (nodeLines h) := by
  induction f with
  | zero =>
    intro s d d' _
    cases s with
    | nil => simp [displayLoop, walk]
    | cons x s => rfl
  | succ f ih =>
    intro s d d' hd
    cases s with
    | nil => simp [displayLoop, walk]
    | cons x s =>
      rw [displayLoop, walk]
      by_cases hx : x ∈ d
      · rw [if_pos hx, if_pos ((hd x).1 hx)]
        exact ih s d d' hd
      · rw [if_neg hx, if_neg (fun h => hx ((hd x).2 h)),
          ih _ (x :: d) (d' ++ [x]) (fun y => by simp [hd y, or_comm])]
        change Option.map _ (Option.map _
          (walk _ _ f (pushAll (d' ++ [x]) s ((h x).edges.map Prod.snd)) (d' ++ [x]))) = _
        cases hw : walk (fun x => (h x).edges.map Prod.snd) pushAll f
          (pushAll (d' ++ [x]) s ((h x).edges.map Prod.snd)) (d' ++ [x]) with
        | none => rfl
        | some r =>
          obtain ⟨t, rfl⟩ := walk_prefix f _ _ _ hw
          simp

/-! ### Before `finish` -/

theorem origStep_zero (h : OHeap) (hz : ∀ x, (h x).count = 0) (t : Bool) (c : Char)
    (es : List (Char × ℕ)) (s : ℕ) : origStep h t c es s =
      (Dict.get? es c).map fun y => (s + (if t then 1 else 0), y) := by
  induction es generalizing s with
  | nil => rfl
  | cons e es ih =>
    obtain ⟨l, y⟩ := e
    rw [origStep, Dict.get?_cons]
    by_cases hl : l = c
    · rw [if_pos hl, if_pos hl]; rfl
    · rw [if_neg hl, if_neg hl, hz, ih]; rfl

theorem lookupFrom_zero {h0 : Heap Char} {o : OGraph δ} (hk : KeysOk h0) (hs : Shape h0 o.heap)
    (hz : ∀ x, (o.heap x).count = 0) (w : List Char) : ∀ x s,
    (¬ h0.acc x w → o.lookupFrom w s x = .ok none) ∧
    (∀ q : List Char → Bool, (∀ v, q v = true ↔ h0.acc x v) → h0.acc x w →
      o.lookupFrom w s x =
        readAt o.data ((s + (List.range w.length).countP fun i => q (w.take i) : ℕ) : ℤ)) := by
  induction w with
  | nil =>
    intro x s
    rw [acc_nil, OGraph.lookupFrom, (hs x).1]
    constructor
    · intro h; rw [if_neg h]
    · intro q _ h
      rw [if_pos h]
      simp [readAt]
      rfl
  | cons c w ih =>
    intro x s
    rw [acc_cons, OGraph.lookupFrom, (hs x).1, (hs x).2, origStep_zero _ hz]
    have hget : Dict.get? (sortEdges (h0 x).edges) c = h0.edge x c := by
      have hn : (Dict.keys (sortEdges (h0 x).edges)).Nodup :=
        (((sortEdges_perm (h0 x).edges).map Prod.fst).nodup_iff).2 (hk x)
      ext y
      rw [← Dict.mem_iff_get? hn, mem_sortEdges, Dict.mem_iff_get? (hk x)]
      rfl
    rw [hget, Dict.has, show Dict.get? (h0 x).edges c = h0.edge x c from rfl]
    cases he : h0.edge x c with
    | none => exact ⟨fun _ => rfl, fun q _ ⟨y, hy, _⟩ => by cases hy⟩
    | some y =>
      simp only [Option.isSome_some, if_true, Option.map_some, Option.some.injEq, exists_eq_left']
      obtain ⟨i1, i2⟩ := ih y (s + (if (h0 x).terminal then 1 else 0))
      refine ⟨i1, fun q hq ha => ?_⟩
      rw [i2 (fun v => q (c :: v)) (fun v => by
        rw [hq, acc_cons, he]
        simp) ha]
      congr 2
      rw [List.length_cons, List.range_succ_eq_map, List.countP_cons, List.countP_map]
      have h1 : (if q (List.take 0 (c :: w)) = true then 1 else 0) =
          if (h0 x).terminal = true then 1 else 0 := by
        have := hq []
        rw [acc_nil] at this
        by_cases ht : (h0 x).terminal = true
        · simp [ht, this.2 ht]
        · simp [ht, mt this.1 ht]
      rw [h1]
      have h2 : (List.range w.length).countP (fun i => q (c :: w.take i)) =
          (List.range w.length).countP ((fun i => q (List.take i (c :: w))) ∘ Nat.succ) := rfl
      rw [h2]
      omega

end Dawg
end Verif
