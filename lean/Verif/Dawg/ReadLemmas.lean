import Verif.Dawg.InsertLemmas

/-!
# `finalize` and the reading methods
-/

namespace Verif
namespace Dawg

variable {α δ : Type} [LinearOrder α]

/-- Every path from `x` is shorter than `f`. -/
def Depth (h : Heap α) (x f : ℕ) : Prop := ∀ w y, h.run x w = some y → w.length < f

theorem Depth.pos {h : Heap α} {x f : ℕ} (hd : Depth h x f) : ∃ f', f = f' + 1 := by
  have := hd [] x rfl
  exact ⟨f - 1, by simp at this; omega⟩

theorem Depth.child {h : Heap α} {x f : ℕ} (hd : Depth h x (f + 1)) {c : α} {y : ℕ}
    (he : h.edge x c = some y) : Depth h y f := by
  intro w z hz
  have := hd (c :: w) z (by rw [Heap.run, he]; exact hz)
  simp at this
  omega

theorem Depth.mono {h : Heap α} {x f f' : ℕ} (hd : Depth h x f) (hf : f ≤ f') : Depth h x f' :=
  fun w y hy => lt_of_lt_of_le (hd w y hy) hf

/-- Labels of all nodes are distinct. -/
def KeysOk (h : Heap α) : Prop := ∀ x, (Dict.keys (h x).edges).Nodup

/-- The words from `x`, shorter than the bound, in order. -/
def wordsOf : ℕ → Heap α → ℕ → List (List α)
  | 0, _, _ => []
  | f + 1, h, x => (if (h x).terminal then [[]] else []) ++
      (sortEdges (h x).edges).flatMap (fun e => (wordsOf f h e.2).map (e.1 :: ·))

theorem mem_wordsOf {h : Heap α} (hk : KeysOk h) (f : ℕ) (x : ℕ) (w : List α) :
    w ∈ wordsOf f h x ↔ h.acc x w ∧ w.length < f := by
  induction f generalizing x w with
  | zero => simp [wordsOf]
  | succ f ih =>
    simp only [wordsOf, List.mem_append, List.mem_flatMap, List.mem_map]
    cases w with
    | nil => by_cases ht : (h x).terminal = true <;> simp [acc_nil, ht]
    | cons c w =>
      rw [acc_cons]
      constructor
      · rintro (h1 | ⟨e, he, v, hv, hvw⟩)
        · split at h1 <;> simp at h1
        · obtain ⟨l, y⟩ := e
          simp only [List.cons.injEq] at hvw
          obtain ⟨rfl, rfl⟩ := hvw
          have := (ih y v).mp hv
          refine ⟨⟨y, (mem_sortEdges_iff (hk x)).mp he, this.1⟩, ?_⟩
          simp; omega
      · rintro ⟨⟨y, he, hy⟩, hl⟩
        refine Or.inr ⟨(c, y), (mem_sortEdges_iff (hk x)).mpr he, w, (ih y w).mpr ⟨hy, ?_⟩, rfl⟩
        simp at hl; omega

theorem wordsOf_sorted {h : Heap α} (hk : KeysOk h) (f : ℕ) (x : ℕ) :
    (wordsOf f h x).Pairwise (· < ·) := by
  induction f generalizing x with
  | zero => simp [wordsOf]
  | succ f ih =>
    simp only [wordsOf]
    rw [List.pairwise_append]
    refine ⟨?_, ?_, ?_⟩
    · split <;> simp
    · rw [List.pairwise_flatMap]
      refine ⟨?_, ?_⟩
      · intro e _
        rw [List.pairwise_map]
        exact (ih e.2).imp (fun h => List.cons_lt_cons_iff.mpr (Or.inr ⟨rfl, h⟩))
      · refine (sortEdges_pairwise _ (hk x)).imp ?_
        intro e e' hee u hu v hv
        obtain ⟨u', -, rfl⟩ := List.mem_map.mp hu
        obtain ⟨v', -, rfl⟩ := List.mem_map.mp hv
        exact List.cons_lt_cons_iff.mpr (Or.inl hee)
    · intro u hu v hv
      have : u = [] := by
        split at hu <;> simp at hu
        exact hu
      subst this
      obtain ⟨e, -, hv⟩ := List.mem_flatMap.mp hv
      obtain ⟨v', -, rfl⟩ := List.mem_map.mp hv
      simp

theorem eq_of_sorted {l l' : List (List α)} (h : l.Pairwise (· < ·)) (h' : l'.Pairwise (· < ·))
    (hm : ∀ w, w ∈ l ↔ w ∈ l') : l = l' := by
  have hp : l.Perm l' := by
    refine (List.perm_ext_iff_of_nodup ?_ ?_).mpr hm
    · exact h.imp (fun h => ne_of_lt h)
    · exact h'.imp (fun h => ne_of_lt h)
  exact hp.eq_of_pairwise (fun a b _ _ h1 h2 => absurd (lt_trans h1 h2) (lt_irrefl _)) h h'

theorem wordsOf_stable {h : Heap α} (hk : KeysOk h) {x f f' : ℕ} (hd : Depth h x f) (hf : f ≤ f') :
    wordsOf f' h x = wordsOf f h x := by
  refine eq_of_sorted (wordsOf_sorted hk _ _) (wordsOf_sorted hk _ _) ?_
  intro w
  rw [mem_wordsOf hk, mem_wordsOf hk]
  constructor
  · rintro ⟨⟨y, hy, ht⟩, -⟩
    exact ⟨⟨y, hy, ht⟩, hd w y hy⟩
  · rintro ⟨h1, h2⟩
    exact ⟨h1, by omega⟩

theorem mapM_ok' {β γ : Type} {f : β → Except PyErr γ} {g : β → γ} (l : List β)
    (hf : ∀ x ∈ l, f x = .ok (g x)) : l.mapM f = .ok (l.map g) := by
  induction l with
  | nil => rfl
  | cons a l ih =>
    rw [List.mapM_cons, hf a (by simp), ih (fun x hx => hf x (by simp [hx]))]
    rfl

theorem iterNode_ok {h : Heap α} (hk : KeysOk h) {f x : ℕ} (hd : Depth h x f) :
    iterNode f h x = .ok (wordsOf f h x) := by
  induction f generalizing x with
  | zero => obtain ⟨f', hf⟩ := hd.pos; omega
  | succ f ih =>
    have := mapM_ok' (f := fun e : α × ℕ => do
        let ws ← iterNode f h e.2
        return ws.map (e.1 :: ·)) (g := fun e => (wordsOf f h e.2).map (e.1 :: ·))
      (sortEdges (h x).edges) (by
        rintro ⟨c, y⟩ he
        simp only
        rw [ih (hd.child ((mem_sortEdges_iff (hk x)).mp he))]
        rfl)
    simp only [iterNode, wordsOf]
    rw [this]
    simp only [List.flatMap]
    rfl

/-- `y` can be reached from `x`. -/
def Heap.Reach (h : Heap α) (x y : ℕ) : Prop := ∃ w, h.run x w = some y

theorem Heap.Reach.refl (h : Heap α) (x : ℕ) : h.Reach x x := ⟨[], rfl⟩

theorem Heap.Reach.trans {h : Heap α} {x y z : ℕ} (h1 : h.Reach x y) (h2 : h.Reach y z) : h.Reach x z := by
  obtain ⟨u, hu⟩ := h1
  obtain ⟨v, hv⟩ := h2
  exact ⟨u ++ v, by rw [run_append, hu]; exact hv⟩

theorem Heap.Reach.edge {h : Heap α} {x y : ℕ} {c : α} (he : h.edge x c = some y) : h.Reach x y :=
  ⟨[c], by rw [Heap.run, he]; rfl⟩

theorem reach_cases {h : Heap α} {x z : ℕ} (hr : h.Reach x z) :
    z = x ∨ ∃ c y, h.edge x c = some y ∧ h.Reach y z := by
  obtain ⟨w, hw⟩ := hr
  cases w with
  | nil =>
    simp only [Heap.run, Option.some.injEq] at hw
    exact Or.inl hw.symm
  | cons c w =>
    rw [Heap.run] at hw
    obtain ⟨y, hy, hz⟩ := Option.bind_eq_some_iff.mp hw
    exact Or.inr ⟨c, y, hy, w, hz⟩

theorem Depth.acyclic {h : Heap α} {x f : ℕ} (hd : Depth h x f) {c : α} {y : ℕ}
    (he : h.edge x c = some y) : ¬ h.Reach y x := by
  rintro ⟨w, hw⟩
  have hloop : h.run x (c :: w) = some x := by rw [Heap.run, he]; exact hw
  have : ∀ n, ∃ u, h.run x u = some x ∧ n ≤ u.length := by
    intro n
    induction n with
    | zero => exact ⟨[], rfl, by simp⟩
    | succ n ih =>
      obtain ⟨u, hu, hn⟩ := ih
      refine ⟨(c :: w) ++ u, ?_, by simp; omega⟩
      rw [run_append, hloop]
      exact hu
  obtain ⟨u, hu, hn⟩ := this f
  have := hd u x hu
  omega

/-- A node after `finalize`. -/
def doneNode (N : ℕ) (h : Heap α) (z : ℕ) : Node α :=
  { h z with leafCount := some (wordsOf N h z).length, finalEdges := some (sortEdges (h z).edges) }

/-- The loop of `finalize`. -/
def finStep (f x : ℕ) (h : Heap α) (e : α × ℕ) : Except PyErr (Heap α) := do
  let h ← finalizeNode f h e.2
  match (h x).leafCount, (h e.2).leafCount with
  | some n, some c => .ok (h.put x { h x with leafCount := some (n + c) })
  | _, _ => .error .typeError

theorem finalizeNode_succ (f : ℕ) (h : Heap α) (x : ℕ) : finalizeNode (f + 1) h x =
    if (h x).leafCount.isSome then .ok h
    else (do
      let h := h.put x { h x with leafCount := some (if (h x).terminal then 1 else 0) }
      let h ← (sortEdges (h x).edges).foldlM (finStep f x) h
      .ok (h.put x { h x with finalEdges := some (sortEdges (h x).edges) })) := rfl

open Classical in
/-- The heap during the loop: `P` nodes done, node `x` has count `n`. -/
noncomputable def midHeap (N : ℕ) (h0 h' : Heap α) (x : ℕ) (P : ℕ → Prop) (n : ℕ) : Heap α := fun z =>
  if z = x then { h0 x with leafCount := some n } else if P z then doneNode N h0 z else h' z

/-- What may be below `x` when `finalize` is called on it. -/
def Ready (N : ℕ) (h0 h' : Heap α) (x : ℕ) : Prop := ∀ z, h0.Reach x z →
  h' z = h0 z ∨ ∀ y, h0.Reach z y → h' y = doneNode N h0 y

open Classical in
theorem finalizeNode_ok {h0 : Heap α} (hk : KeysOk h0) (N : ℕ)
    (hclean : ∀ z, (h0 z).leafCount = none) (f : ℕ) : ∀ (x : ℕ) (h' : Heap α), Depth h0 x f → f ≤ N →
    Ready N h0 h' x →
    finalizeNode f h' x = .ok (fun z => if h0.Reach x z then doneNode N h0 z else h' z) := by
  induction f with
  | zero => intro x h' hd; obtain ⟨f', hf⟩ := hd.pos; omega
  | succ f ih =>
    intro x h' hd hN hr
    rw [finalizeNode_succ]
    rcases hr x (Heap.Reach.refl _ _) with hx | hx
    swap
    · have : (h' x).leafCount.isSome := by
        rw [hx x (Heap.Reach.refl _ _)]; rfl
      rw [if_pos this]
      congr 1
      funext z
      split
      · rename_i hz; exact hx z hz
      · rfl
    · have hnone : ¬ (h' x).leafCount.isSome = true := by rw [hx, hclean]; simp
      rw [if_neg hnone]
      have hstart : (h'.put x { h' x with leafCount := some (if (h' x).terminal then 1 else 0) }) =
          midHeap N h0 h' x (fun _ => False) (if (h0 x).terminal then 1 else 0) := by
        funext z
        unfold midHeap Heap.put
        by_cases hz : z = x
        · rw [if_pos hz, if_pos hz, hx]
        · rw [if_neg hz, if_neg hz, if_neg (fun h => h)]
      have hedges : ∀ P n, ((midHeap N h0 h' x P n) x).edges = (h0 x).edges := by
        intro P n; simp [midHeap]
      simp only
      rw [hstart, hedges]
      -- the loop
      have key : ∀ (es pre : List (α × ℕ)), (∀ e ∈ es, h0.edge x e.1 = some e.2) →
          (∀ e ∈ pre, h0.edge x e.1 = some e.2) → ∀ n,
          es.foldlM (finStep f x) (midHeap N h0 h' x (fun z => ∃ e ∈ pre, h0.Reach e.2 z) n) =
            .ok (midHeap N h0 h' x (fun z => ∃ e ∈ pre ++ es, h0.Reach e.2 z)
              (n + (es.map (fun e => (wordsOf N h0 e.2).length)).sum)) := by
        intro es
        induction es with
        | nil => intro pre _ _ n; simp; rfl
        | cons e es ihe =>
          intro pre hes hpre n
          rw [List.foldlM_cons]
          have he := hes e (by simp)
          have hne : ∀ z, h0.Reach e.2 z → z ≠ x := by
            rintro z hz rfl
            exact hd.acyclic he hz
          have hstep : finStep f x (midHeap N h0 h' x (fun z => ∃ e ∈ pre, h0.Reach e.2 z) n) e =
              .ok (midHeap N h0 h' x (fun z => ∃ e' ∈ pre ++ [e], h0.Reach e'.2 z)
                (n + (wordsOf N h0 e.2).length)) := by
            unfold finStep
            rw [ih e.2 _ (hd.child he) (by omega) ?_]
            · have hnr : ¬ h0.Reach e.2 x := hd.acyclic he
              change (match (if h0.Reach e.2 x then doneNode N h0 x else _).leafCount,
                (if h0.Reach e.2 e.2 then doneNode N h0 e.2 else _).leafCount with
                | some n, some c => _
                | _, _ => _) = _
              rw [if_neg hnr, if_pos (Heap.Reach.refl _ _)]
              simp only [midHeap, if_true, doneNode]
              congr 1
              funext z
              unfold Heap.put
              by_cases hz : z = x
              · subst hz
                simp [hnr, midHeap]
              · simp only [midHeap, if_neg hz, doneNode]
                by_cases h1 : h0.Reach e.2 z
                · have h2 : ∃ e' ∈ pre ++ [e], h0.Reach e'.2 z := ⟨e, by simp, h1⟩
                  rw [if_pos h1, if_pos h2]
                · rw [if_neg h1]
                  by_cases h2 : ∃ e' ∈ pre, h0.Reach e'.2 z
                  · have h3 : ∃ e' ∈ pre ++ [e], h0.Reach e'.2 z := by
                      obtain ⟨e', he', hr'⟩ := h2
                      exact ⟨e', by simp [he'], hr'⟩
                    rw [if_pos h2, if_pos h3]
                  · have h3 : ¬ ∃ e' ∈ pre ++ [e], h0.Reach e'.2 z := by
                      rintro ⟨e', he', hr'⟩
                      rcases List.mem_append.mp he' with he' | he'
                      · exact h2 ⟨e', he', hr'⟩
                      · rw [List.mem_singleton.mp he'] at hr'
                        exact h1 hr'
                    rw [if_neg h2, if_neg h3]
            · intro z hz
              have hzx := hne z hz
              by_cases hp : ∃ e' ∈ pre, h0.Reach e'.2 z
              · right
                intro y hy
                have hyx := hne y (hz.trans hy)
                obtain ⟨e', he', hr'⟩ := hp
                simp only [midHeap, if_neg hyx]
                rw [if_pos ⟨e', he', hr'.trans hy⟩]
              · rcases hr z ((Heap.Reach.edge he).trans hz) with h1 | h1
                · left
                  simp only [midHeap, if_neg hzx, if_neg hp, h1]
                · right
                  intro y hy
                  have hyx := hne y (hz.trans hy)
                  simp only [midHeap, if_neg hyx]
                  split
                  · rfl
                  · exact h1 y hy
          rw [hstep]
          change List.foldlM (finStep f x) (midHeap N h0 h' x _ _) es = _
          rw [ihe (pre ++ [e]) (fun e' he' => hes e' (by simp [he']))
            (by
              intro e' he'
              rcases List.mem_append.mp he' with he' | he'
              · exact hpre e' he'
              · rw [List.mem_singleton.mp he']; exact he) _]
          simp only [List.append_assoc, List.singleton_append, List.map_cons, List.sum_cons, Nat.add_assoc]
      have hmem : ∀ e ∈ sortEdges (h0 x).edges, h0.edge x e.1 = some e.2 := by
        rintro ⟨c, y⟩ he
        exact (mem_sortEdges_iff (hk x)).mp he
      have hk' := key (sortEdges (h0 x).edges) [] hmem (by simp) (if (h0 x).terminal then 1 else 0)
      simp only [List.not_mem_nil, false_and, exists_false, List.nil_append] at hk'
      rw [hk']
      change Except.ok _ = Except.ok _
      congr 1
      -- the count
      have hcount : (if (h0 x).terminal then 1 else 0) +
          ((sortEdges (h0 x).edges).map (fun e => (wordsOf N h0 e.2).length)).sum =
          (wordsOf N h0 x).length := by
        obtain ⟨N', rfl⟩ : ∃ N', N = N' + 1 := ⟨N - 1, by omega⟩
        conv_rhs => rw [wordsOf]
        rw [List.length_append, List.length_flatMap]
        congr 1
        · split <;> rfl
        · congr 1
          apply List.map_congr_left
          intro e he
          rw [List.length_map]
          have hde := hd.child (hmem e he)
          rw [wordsOf_stable hk hde (by omega), wordsOf_stable hk hde (by omega : f ≤ N')]
      rw [hcount]
      funext z
      unfold Heap.put
      by_cases hz : z = x
      · subst hz
        rw [if_pos rfl, if_pos (Heap.Reach.refl _ _)]
        simp [midHeap, doneNode]
      · rw [if_neg hz]
        simp only [midHeap, if_neg hz]
        by_cases h1 : h0.Reach x z
        · rw [if_pos h1]
          rcases reach_cases h1 with h2 | ⟨c, y, hy, hyz⟩
          · exact absurd h2 hz
          · rw [if_pos ⟨(c, y), (mem_sortEdges_iff (hk x)).mpr hy, hyz⟩]
        · rw [if_neg h1, if_neg]
          rintro ⟨e, he, hez⟩
          exact h1 ((Heap.Reach.edge (hmem e he)).trans hez)

/-- The heap `h` is `h0` with the nodes below `x` finalized. -/
structure Final (N : ℕ) (h0 h : Heap α) (x : ℕ) : Prop where
  term : ∀ z, (h z).terminal = (h0 z).terminal
  edges : ∀ z, (h z).edges = (h0 z).edges
  done : ∀ z, h0.Reach x z → h z = doneNode N h0 z

theorem stepEdges_ok {N : ℕ} {h0 h : Heap α} (c : α) (t : Bool) (es : List (α × ℕ))
    (hes : ∀ e ∈ es, (h e.2).leafCount = some (wordsOf N h0 e.2).length) (s : ℕ) :
    (stepEdges h t c es s = .ok none ∧ ∀ e ∈ es, e.1 ≠ c) ∨
    ∃ k y, stepEdges h t c es s = .ok (some (s + k + (if t then 1 else 0), y)) ∧ (c, y) ∈ es ∧
      ∀ i w, (wordsOf N h0 y)[i]? = some w →
        (es.flatMap (fun e => (wordsOf N h0 e.2).map (e.1 :: ·)))[k + i]? = some (c :: w) := by
  induction es generalizing s with
  | nil => exact Or.inl ⟨rfl, by simp⟩
  | cons e es ih =>
    obtain ⟨l, y⟩ := e
    by_cases h1 : c = l
    · subst h1
      refine Or.inr ⟨0, y, by simp [stepEdges], by simp, ?_⟩
      intro i w hi
      have hlt : i < (wordsOf N h0 y).length := (List.getElem?_eq_some_iff.mp hi).1
      rw [List.flatMap_cons, Nat.zero_add, List.getElem?_append_left (by simpa using hlt), List.getElem?_map, hi]
      rfl
    · have hy := hes (l, y) (by simp)
      simp only at hy
      simp only [stepEdges, if_neg h1, hy]
      rcases ih (fun e he => hes e (by simp [he])) (s + (wordsOf N h0 y).length) with ⟨h2, h3⟩ | ⟨k, z, h2, h3, h4⟩
      · left
        refine ⟨h2, ?_⟩
        intro e he
        rcases List.mem_cons.mp he with rfl | he
        · exact fun e => h1 e.symm
        · exact h3 e he
      · right
        refine ⟨(wordsOf N h0 y).length + k, z, ?_, by simp [h3], ?_⟩
        · rw [h2, Nat.add_assoc s]
        · intro i w hi
          rw [List.flatMap_cons, List.getElem?_append_right (by simp; omega)]
          rw [List.length_map, show (wordsOf N h0 y).length + k + i - (wordsOf N h0 y).length = k + i by omega]
          exact h4 i w hi

theorem wordsOf_unfold {h0 : Heap α} (hk : KeysOk h0) {x f N : ℕ} (hd : Depth h0 x f) (hN : f ≤ N) :
    wordsOf N h0 x = (if (h0 x).terminal then [[]] else []) ++
      (sortEdges (h0 x).edges).flatMap (fun e => (wordsOf N h0 e.2).map (e.1 :: ·)) := by
  obtain ⟨f', rfl⟩ := hd.pos
  obtain ⟨N', rfl⟩ : ∃ N', N = N' + 1 := ⟨N - 1, by omega⟩
  conv_lhs => rw [wordsOf]
  congr 1
  rw [List.flatMap, List.flatMap]
  congr 1
  apply List.map_congr_left
  rintro ⟨c, y⟩ he
  have hde := hd.child ((mem_sortEdges_iff (hk x)).mp he)
  simp only
  rw [wordsOf_stable hk hde (by omega : f' ≤ N' + 1), wordsOf_stable hk hde (by omega : f' ≤ N')]

theorem indexLoop_ok {N : ℕ} {h0 h : Heap α} {r : ℕ} (hk : KeysOk h0) (hF : Final N h0 h r)
    (w : List α) : ∀ (f x s : ℕ), Depth h0 x f → f ≤ N → h0.Reach r x →
    (∃ i : ℕ, (wordsOf N h0 x)[i]? = some w ∧ indexLoop h w s x = .ok ((s : ℤ) + i)) ∨
      (¬ h0.acc x w ∧ indexLoop h w s x = .ok (-1)) := by
  induction w with
  | nil =>
    intro f x s hd hN hr
    by_cases ht : (h0 x).terminal = true
    · left
      refine ⟨0, ?_, ?_⟩
      · rw [wordsOf_unfold hk hd hN, if_pos ht]; rfl
      · simp [indexLoop, hF.term, ht]
    · right
      refine ⟨by rw [acc_nil]; exact ht, ?_⟩
      simp [indexLoop, hF.term, ht]
  | cons c w ih =>
    intro f x s hd hN hr
    obtain ⟨f', rfl⟩ := hd.pos
    have hfe : (h x).finalEdges = some (sortEdges (h0 x).edges) := by rw [hF.done x hr]; rfl
    have hmem : ∀ e ∈ sortEdges (h0 x).edges, h0.edge x e.1 = some e.2 := by
      rintro ⟨c, y⟩ he
      exact (mem_sortEdges_iff (hk x)).mp he
    have hlc : ∀ e ∈ sortEdges (h0 x).edges, (h e.2).leafCount = some (wordsOf N h0 e.2).length := by
      intro e he
      rw [hF.done e.2 (hr.trans (Heap.Reach.edge (hmem e he)))]
      rfl
    simp only [indexLoop, hfe]
    rcases stepEdges_ok c (h x).terminal (sortEdges (h0 x).edges) hlc s with ⟨h1, h2⟩ | ⟨k, y, h1, h2, h3⟩
    · right
      rw [h1]
      refine ⟨?_, rfl⟩
      rw [acc_cons]
      rintro ⟨y, he, -⟩
      exact h2 (c, y) ((mem_sortEdges_iff (hk x)).mpr he) rfl
    · rw [h1]
      simp only
      have hy := hmem (c, y) h2
      rcases ih f' y (s + k + (if (h x).terminal then 1 else 0)) (hd.child hy) (by omega)
        (hr.trans (Heap.Reach.edge hy)) with ⟨i, hi, hl⟩ | ⟨hn, hl⟩
      · left
        refine ⟨(if (h0 x).terminal then 1 else 0) + (k + i), ?_, ?_⟩
        · rw [wordsOf_unfold hk hd hN, List.getElem?_append_right (by split <;> simp)]
          rw [show (if (h0 x).terminal = true then 1 else 0) + (k + i) -
            (if (h0 x).terminal = true then [([] : List α)] else []).length = k + i by
              split <;> simp]
          exact h3 i w hi
        · rw [hl, hF.term]
          congr 1
          split <;> (push_cast; omega)
      · right
        refine ⟨?_, hl⟩
        rw [acc_cons]
        rintro ⟨y', he', hacc⟩
        rw [hy] at he'
        cases he'
        exact hn hacc

theorem getEdges_ok {N : ℕ} {h0 h : Heap α} (rec : ℕ → ℤ → Except PyErr (Option (List α)))
    (es : List (α × ℕ))
    (hes : ∀ e ∈ es, (h e.2).leafCount = some (wordsOf N h0 e.2).length)
    (hrec : ∀ e ∈ es, ∀ (i : ℕ) w, (wordsOf N h0 e.2)[i]? = some w → rec e.2 i = .ok (some w))
    (i : ℕ) (w : List α)
    (hi : (es.flatMap (fun e => (wordsOf N h0 e.2).map (e.1 :: ·)))[i]? = some w) :
    getEdges h rec es i = .ok (some w) := by
  induction es generalizing i with
  | nil => simp at hi
  | cons e es ih =>
    obtain ⟨l, y⟩ := e
    have hy := hes (l, y) (by simp)
    simp only at hy
    simp only [getEdges, hy]
    rw [List.flatMap_cons] at hi
    by_cases hlt : i < (wordsOf N h0 y).length
    · rw [if_pos (by exact_mod_cast hlt)]
      rw [List.getElem?_append_left (by simpa using hlt), List.getElem?_map] at hi
      obtain ⟨v, hv, rfl⟩ := Option.map_eq_some_iff.mp hi
      rw [hrec (l, y) (by simp) i v hv]
    · rw [if_neg (by exact_mod_cast hlt)]
      rw [List.getElem?_append_right (by simpa using hlt), List.length_map] at hi
      have := ih (fun e he => hes e (by simp [he])) (fun e he => hrec e (by simp [he])) _ hi
      rw [← this]
      congr 1
      have h3 : (wordsOf N h0 y).length ≤ i := by omega
      change (i : ℤ) - _ = ((i - (wordsOf N h0 y).length : ℕ) : ℤ)
      omega

theorem getNode_ok {N : ℕ} {h0 h : Heap α} {r : ℕ} (hk : KeysOk h0) (hF : Final N h0 h r) (f : ℕ) :
    ∀ (x : ℕ), Depth h0 x f → f ≤ N → h0.Reach r x → ∀ (i : ℕ) w, (wordsOf N h0 x)[i]? = some w →
    getNode f h x i = .ok (some w) := by
  induction f with
  | zero => intro x hd; obtain ⟨f', hf⟩ := hd.pos; omega
  | succ f ih =>
    intro x hd hN hr i w hi
    have hfe : (h x).finalEdges = some (sortEdges (h0 x).edges) := by rw [hF.done x hr]; rfl
    have hmem : ∀ e ∈ sortEdges (h0 x).edges, h0.edge x e.1 = some e.2 := by
      rintro ⟨c, y⟩ he
      exact (mem_sortEdges_iff (hk x)).mp he
    have hlc : ∀ e ∈ sortEdges (h0 x).edges, (h e.2).leafCount = some (wordsOf N h0 e.2).length := by
      intro e he
      rw [hF.done e.2 (hr.trans (Heap.Reach.edge (hmem e he)))]
      rfl
    have hrec : ∀ e ∈ sortEdges (h0 x).edges, ∀ (i : ℕ) w, (wordsOf N h0 e.2)[i]? = some w →
        getNode f h e.2 i = .ok (some w) := by
      intro e he
      exact ih e.2 (hd.child (hmem e he)) (by omega) (hr.trans (Heap.Reach.edge (hmem e he)))
    rw [wordsOf_unfold hk hd hN] at hi
    simp only [getNode, hfe, hF.term]
    by_cases ht : (h0 x).terminal = true
    · simp only [ht, if_true] at hi ⊢
      cases i with
      | zero =>
        simp at hi
        simp [hi]
      | succ i =>
        rw [if_neg (by push_cast; omega)]
        rw [List.singleton_append, List.getElem?_cons_succ] at hi
        have := getEdges_ok (getNode f h) _ hlc hrec i w hi
        rw [← this]
        congr 1
        push_cast
        omega
    · simp only [ht] at hi ⊢
      rw [if_neg (by simp)]
      rw [if_neg (by simp), List.nil_append] at hi
      have := getEdges_ok (getNode f h) _ hlc hrec i w hi
      rw [← this]
      congr 1

/-- Every node of a graph with the invariant can be completed to a word. -/
theorem Core.run_live {g : Graph α δ} (hg : Core g) (hl : g.PathLive) {w : List α} {y : ℕ}
    (hw : g.heap.run g.root w = some y) : w = [] ∨ ∃ v, g.heap.acc g.root (w ++ v) := by
  have hcont : ∀ v, g.heap.acc y v → g.heap.acc g.root (w ++ v) :=
    fun v hv => (acc_append _ hw v).mpr hv
  rcases hg.run_used hw with h | h
  · rcases List.mem_cons.mp h with h | h
    · left
      have := hg.unique [] (List.nil_suffix) w (by rw [hw, h]; rfl)
      simpa [lettersOf] using this
    · obtain ⟨e, he, rfl⟩ := List.mem_map.mp h
      obtain ⟨v, hv⟩ := hl e he
      exact Or.inr ⟨v, hcont v hv⟩
  · obtain ⟨v, hv⟩ := hg.live y h
    exact Or.inr ⟨v, hcont v hv⟩

theorem Core.depth {g : Graph α δ} (hg : Core g) (hl : g.PathLive) {ws : List (List α)}
    (hlang : ∀ w, g.heap.acc g.root w ↔ w ∈ ws) {f : ℕ} (hf : ∀ w ∈ ws, w.length < f) (hf0 : 0 < f) :
    Depth g.heap g.root f := by
  intro w y hw
  rcases hg.run_live hl hw with rfl | ⟨v, hv⟩
  · simpa using hf0
  · have := hf _ ((hlang _).mp hv)
    simp at this
    omega

theorem Core.wordsOf_eq {g : Graph α δ} (hg : Core g) {ws : List (List α)}
    (hlang : ∀ w, g.heap.acc g.root w ↔ w ∈ ws) (hs : ws.Pairwise (· < ·)) {f : ℕ}
    (hf : ∀ w ∈ ws, w.length < f) : wordsOf f g.heap g.root = ws := by
  refine eq_of_sorted (wordsOf_sorted hg.keysNodup _ _) hs ?_
  intro w
  rw [mem_wordsOf hg.keysNodup, hlang]
  exact ⟨fun h => h.1, fun h => ⟨h, hf w h⟩⟩

/-- A finalized graph: the heap before, and what is known. -/
structure Ready' (limit : ℕ) (g0 g : Graph α δ) (ps : List (List α × δ)) : Prop where
  core : Core g0
  unch : g0.unchecked = []
  lang : ∀ w, g0.heap.acc g0.root w ↔ w ∈ ps.map Prod.fst
  root : g.root = g0.root
  final : Final limit g0.heap g.heap g0.root
  depth : Depth g0.heap g0.root limit
  words : wordsOf limit g0.heap g0.root = ps.map Prod.fst
  data : g.data = ps.map Prod.snd
  mini : g.minimized = g0.minimized
  other : ∀ z, ¬ g0.heap.Reach g0.root z → g.heap z = g0.heap z

theorem Inv.finalize_of {g : Graph α δ} {ps : List (List α × δ)} (hg : Inv g ps) {limit : ℕ}
    (hlim : ∀ p ∈ ps, p.1.length < limit) (h0 : 0 < limit) :
    ∃ g', g.finalize limit = .ok g' ∧ Ready' limit (g.minimizeUnchecked 0) g' ps := by
  obtain ⟨m1, m2, m3⟩ := hg.core.minimizeN hg.pathLive (g.unchecked.length - 0) (by omega)
  have hmu : g.minimizeUnchecked 0 = g.minimizeN (g.unchecked.length - 0) := rfl
  unfold Graph.finalize
  rw [hmu]
  generalize g.minimizeN (g.unchecked.length - 0) = g1 at m1 m2 m3
  have hu : g1.unchecked = [] := by rw [m2]; simp
  have hpl : g1.PathLive := by intro e he; rw [hu] at he; simp at he
  have hlang : ∀ w, g1.heap.acc g1.root w ↔ w ∈ ps.map Prod.fst := by
    intro w; rw [m3.acc, m3.root]; exact hg.lang w
  have hlen : ∀ w ∈ ps.map Prod.fst, w.length < limit := by
    intro w hw
    obtain ⟨p, hp, rfl⟩ := List.mem_map.mp hw
    exact hlim p hp
  have hd := m1.depth hpl hlang hlen h0
  have hfin := finalizeNode_ok m1.keysNodup limit (fun z => (m1.clean z).1) limit g1.root g1.heap hd (le_refl _)
    (fun z _ => Or.inl rfl)
  simp only
  rw [hfin]
  refine ⟨_, rfl, m1, hu, hlang, rfl, ⟨?_, ?_, ?_⟩, hd, m1.wordsOf_eq hlang hg.sorted hlen, ?_, rfl, ?_⟩
  · intro z; simp only; split <;> rfl
  · intro z; simp only; split <;> rfl
  · intro z hz; simp only; rw [if_pos hz]
  · change g1.data = _
    rw [m3.data, hg.data]
  · intro z hz
    simp only; rw [if_neg hz]

theorem Inv.finalize {g : Graph α δ} {ps : List (List α × δ)} (hg : Inv g ps) {limit : ℕ}
    (hlim : ∀ p ∈ ps, p.1.length < limit) (h0 : 0 < limit) :
    ∃ g0 g', g.finalize limit = .ok g' ∧ Ready' limit g0 g' ps :=
  let ⟨g', h1, h2⟩ := hg.finalize_of hlim h0
  ⟨_, g', h1, h2⟩

end Dawg
end Verif
