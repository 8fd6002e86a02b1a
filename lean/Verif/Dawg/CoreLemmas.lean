import Verif.Dawg.RunLemmas

/-!
# The invariant of the graph under construction
-/

namespace Verif
namespace Dawg

variable {α δ : Type} [LinearOrder α]

/-- The last node of a list of unchecked edges. -/
def topOf (root : ℕ) : List (ℕ × α × ℕ) → ℕ
  | [] => root
  | (_, _, c) :: _ => c

/-- The letters of the unchecked edges, first letter first. -/
def lettersOf (t : List (ℕ × α × ℕ)) : List α := (t.map (fun e => e.2.1)).reverse

/-- Every unchecked edge starts at the end of the previous one. -/
def ChainOk (root : ℕ) : List (ℕ × α × ℕ) → Prop
  | [] => True
  | e :: t => e.1 = topOf root t ∧ ChainOk root t

/-- The nodes of the word inserted last. -/
def pathNodes (root : ℕ) (t : List (ℕ × α × ℕ)) : List ℕ := root :: t.map (fun e => e.2.2)

/-- Checked nodes. -/
def Graph.Min (g : Graph α δ) (m : ℕ) : Prop := ∃ k, Dict.get? g.minimized k = some m

/-- The invariant. -/
structure Core (g : Graph α δ) : Prop where
  allocPath : ∀ x ∈ pathNodes g.root g.unchecked, x < g.nextId
  allocMin : ∀ m, g.Min m → m < g.nextId
  chain : ChainOk g.root g.unchecked
  link : ∀ p l c, (p, l, c) ∈ g.unchecked → g.heap.edge p l = some c
  nodup : (pathNodes g.root g.unchecked).Nodup
  minKey : ∀ k m, Dict.get? g.minimized k = some m → (g.heap m).key = k
  minEdge : ∀ m c y, g.Min m → g.heap.edge m c = some y → g.Min y
  disj : ∀ m, g.Min m → m ∉ pathNodes g.root g.unchecked
  pathEdge : ∀ x c y, x ∈ pathNodes g.root g.unchecked → g.heap.edge x c = some y →
    g.Min y ∨ (x, c, y) ∈ g.unchecked
  label : ∀ p l c, (p, l, c) ∈ g.unchecked → ∀ a ∈ Dict.keys (g.heap p).edges, a ≤ l
  unique : ∀ t, t <:+ g.unchecked → ∀ w, g.heap.run g.root w = some (topOf g.root t) → w = lettersOf t
  keysNodup : ∀ x, (Dict.keys (g.heap x).edges).Nodup
  live : ∀ m, g.Min m → ∃ w, g.heap.acc m w
  reach : ∀ m, g.Min m → ∃ w, g.heap.run g.root w = some m
  clean : ∀ x, (g.heap x).leafCount = none ∧ (g.heap x).finalEdges = none
  minNodup : (Dict.keys g.minimized).Nodup

omit [LinearOrder α] in
theorem topOf_mem (root : ℕ) {t s : List (ℕ × α × ℕ)} (h : t <:+ s) : topOf root t ∈ pathNodes root s := by
  cases t with
  | nil => simp [topOf, pathNodes]
  | cons e t =>
    have : e ∈ s := h.subset (by simp)
    obtain ⟨p, l, c⟩ := e
    simp only [topOf, pathNodes, List.mem_cons, List.mem_map]
    exact Or.inr ⟨_, this, rfl⟩

omit [LinearOrder α] in
theorem chain_suffix {root : ℕ} {t s : List (ℕ × α × ℕ)} (h : t <:+ s) (hc : ChainOk root s) :
    ChainOk root t := by
  induction s with
  | nil =>
    have : t = [] := by simpa using h
    subst this; exact hc
  | cons e s ih =>
    rcases List.suffix_cons_iff.mp h with rfl | h
    · exact hc
    · exact ih h hc.2

/-- The letters lead to the node. -/
theorem run_letters {h : Heap α} {root : ℕ} {t : List (ℕ × α × ℕ)} (hc : ChainOk root t)
    (hl : ∀ p l c, (p, l, c) ∈ t → h.edge p l = some c) : h.run root (lettersOf t) = some (topOf root t) := by
  induction t with
  | nil => rfl
  | cons e t ih =>
    obtain ⟨p, l, c⟩ := e
    have hp : p = topOf root t := hc.1
    have : lettersOf ((p, l, c) :: t) = lettersOf t ++ [l] := by simp [lettersOf]
    rw [this, run_snoc, ih hc.2 (fun p' l' c' hm => hl p' l' c' (List.mem_cons_of_mem _ hm))]
    change h.edge (topOf root t) l = some c
    rw [← hp]
    exact hl p l c (by simp)

/-- The closed set of all nodes in use. -/
def Graph.Used (g : Graph α δ) (x : ℕ) : Prop := x ∈ pathNodes g.root g.unchecked ∨ g.Min x

theorem Core.closed {g : Graph α δ} (hg : Core g) (z : ℕ) (c : α) (z' : ℕ) (hz : g.Used z)
    (he : g.heap.edge z c = some z') : g.Used z' := by
  rcases hz with hz | hz
  · rcases hg.pathEdge z c z' hz he with h | h
    · exact Or.inr h
    · left
      simp only [pathNodes, List.mem_cons, List.mem_map]
      exact Or.inr ⟨_, h, rfl⟩
  · exact Or.inr (hg.minEdge z c z' hz he)

theorem Core.used_lt {g : Graph α δ} (hg : Core g) {x : ℕ} (h : g.Used x) : x < g.nextId := by
  rcases h with h | h
  · exact hg.allocPath x h
  · exact hg.allocMin x h

theorem Core.used_root (g : Graph α δ) : g.Used g.root := Or.inl (by simp [pathNodes])

theorem keys_link (h : Heap α) (p : ℕ) (l : α) (m x : ℕ) (he : (h.edge p l).isSome) :
    Dict.keys ((h.link p l m) x).edges = Dict.keys (h x).edges := by
  unfold Heap.link Heap.put
  by_cases hx : x = p
  · subst hx
    simp only [if_true]
    rw [Dict.keys_set, if_pos]
    obtain ⟨y, hy⟩ := Option.isSome_iff_exists.mp he
    exact Dict.mem_keys_iff.mpr ⟨y, hy⟩
  · simp [hx]

theorem edge_of_key {g : Graph α δ} (hg : Core g) {c m : ℕ} (h : (g.heap m).key = (g.heap c).key) :
    Twin g.heap c m := by
  unfold Node.key at h
  simp only [Prod.mk.injEq] at h
  exact ⟨h.1, fun l => get?_eq_of_sortEdges (hg.keysNodup m) (hg.keysNodup c) h.2 l⟩

theorem new_core : Core (Graph.new : Graph α δ) := by
  refine ⟨?_, ?_, trivial, ?_, ?_, ?_, ?_, ?_, ?_, ?_, ?_, ?_, ?_, ?_, ?_, ?_⟩
  · simp [pathNodes, Graph.new]
  · rintro m ⟨k, hk⟩; simp [Graph.new] at hk
  · simp [Graph.new]
  · simp [pathNodes, Graph.new]
  · intro k m hk; simp [Graph.new] at hk
  · rintro m c y ⟨k, hk⟩; simp [Graph.new] at hk
  · rintro m ⟨k, hk⟩; simp [Graph.new] at hk
  · intro x c y _ he; simp [Graph.new, Heap.edge, Node.new] at he
  · simp [Graph.new]
  · intro t ht w hw
    have : t = [] := by simpa [Graph.new] using ht
    subst this
    cases w with
    | nil => rfl
    | cons c w => simp [Heap.run, Graph.new, Heap.edge, Node.new] at hw
  · intro x; simp [Graph.new, Node.new]
  · rintro m ⟨k, hk⟩; simp [Graph.new] at hk
  · rintro m ⟨k, hk⟩; simp [Graph.new] at hk
  · intro x; simp [Graph.new, Node.new]
  · simp [Graph.new]

/-- What a round of `minimize_unchecked` leaves alone. -/
structure Same (g g' : Graph α δ) : Prop where
  root : g'.root = g.root
  nextId : g'.nextId = g.nextId
  prev : g'.previousWord = g.previousWord
  data : g'.data = g.data
  acc : ∀ x w, g'.heap.acc x w ↔ g.heap.acc x w
  keys : ∀ x, Dict.keys (g'.heap x).edges = Dict.keys (g.heap x).edges

theorem Core.minimizeStep {g : Graph α δ} (hg : Core g) {p : ℕ} {l : α} {c : ℕ}
    {t : List (ℕ × α × ℕ)} (hu : g.unchecked = (p, l, c) :: t) (hl : ∃ w, g.heap.acc c w) :
    Core g.minimizeStep ∧ g.minimizeStep.unchecked = t ∧ Same g g.minimizeStep := by
  have hsuf : t <:+ g.unchecked := by rw [hu]; exact List.suffix_cons _ _
  have hch := hg.chain
  rw [hu] at hch
  have hp : p = topOf g.root t := hch.1
  have hpt : p ∈ pathNodes g.root t := by rw [hp]; exact topOf_mem _ (List.suffix_refl _)
  have hcp : c ∈ pathNodes g.root g.unchecked := by rw [hu]; simp [pathNodes]
  have hsub : ∀ x ∈ pathNodes g.root t, x ∈ pathNodes g.root g.unchecked := by
    intro x hx
    rw [hu]
    simp only [pathNodes, List.map_cons, List.mem_cons] at hx ⊢
    tauto
  have hnd := hg.nodup
  rw [hu] at hnd
  have hct : c ∉ pathNodes g.root t := by
    simp only [pathNodes, List.map_cons, List.nodup_cons, List.mem_cons, not_or] at hnd ⊢
    exact ⟨fun e => hnd.1.1 e.symm, hnd.2.1⟩
  have hndt : (pathNodes g.root t).Nodup := by
    simp only [pathNodes, List.map_cons, List.nodup_cons, List.mem_cons, not_or] at hnd ⊢
    exact ⟨hnd.1.2, hnd.2.2⟩
  have hpc : p ≠ c := fun e => hct (e ▸ hpt)
  have he : g.heap.edge p l = some c := hg.link p l c (by rw [hu]; simp)
  have hmemt : ∀ e, e ∈ t → e ∈ g.unchecked := fun e h => hsuf.subset h
  -- an unchecked edge below the last one starts at a node different from `c`
  have hpar : ∀ a b d, (a, b, d) ∈ g.unchecked → a ∈ pathNodes g.root t := by
    have : ∀ s : List (ℕ × α × ℕ), s <:+ g.unchecked → ∀ a b d, (a, b, d) ∈ s →
        a ∈ pathNodes g.root s.tail := by
      intro s hs
      induction s with
      | nil => intro a b d h; simp at h
      | cons e s ih =>
        intro a b d h
        have hs' : s <:+ g.unchecked := (List.suffix_cons e s).trans hs
        rcases List.mem_cons.mp h with h | h
        · have := (chain_suffix hs hg.chain).1
          rw [← h] at this
          simp only at this
          rw [this]
          exact topOf_mem _ (List.suffix_refl _)
        · have := ih hs' a b d h
          simp only [List.tail_cons]
          cases s with
          | nil => simp at h
          | cons e' s' =>
            simp only [List.tail_cons, pathNodes, List.map_cons, List.mem_cons] at this ⊢
            tauto
    intro a b d h
    have := this g.unchecked (List.suffix_refl _) a b d h
    rw [hu] at this
    exact this
  unfold Graph.minimizeStep
  rw [hu]
  simp only
  cases hk : Dict.get? g.minimized (g.heap c).key with
  | some m =>
    simp only
    have hm : g.Min m := ⟨_, hk⟩
    have htw : Twin g.heap c m := edge_of_key hg (hg.minKey _ _ hk)
    have hpm : p ≠ m := fun e => hg.disj m hm (e ▸ hsub p hpt)
    have hacc := acc_redirect hpc hpm he htw
    have hkeys : ∀ x, Dict.keys ((g.heap.link p l m) x).edges = Dict.keys (g.heap x).edges :=
      fun x => keys_link _ _ _ _ _ (by rw [he]; rfl)
    have hmp : ∀ x, g.Min x → x ≠ p := fun x hx e => hg.disj x hx (e ▸ hsub p hpt)
    refine ⟨⟨fun x hx => hg.allocPath x (hsub x hx), hg.allocMin, hch.2, ?_, hndt, ?_, ?_,
      fun x hx h => hg.disj x hx (hsub x h), ?_, ?_, ?_, ?_, ?_, ?_, ?_, hg.minNodup⟩, trivial,
      ⟨rfl, rfl, rfl, rfl, hacc, hkeys⟩⟩
    · intro a b d h
      change (g.heap.link p l m).edge a b = some d
      rw [edge_link]
      have hab := hg.link a b d (hmemt _ h)
      rw [if_neg]
      · exact hab
      · rintro ⟨rfl, rfl⟩
        rw [he] at hab
        cases hab
        exact hct (by
          simp only [pathNodes, List.mem_cons, List.mem_map]
          exact Or.inr ⟨_, h, rfl⟩)
    · intro k x hx
      change ((g.heap.link p l m) x).key = k
      rw [link_other _ _ _ _ _ (hmp x ⟨k, hx⟩)]
      exact hg.minKey k x hx
    · intro x b y hx hxy
      change (g.heap.link p l m).edge x b = some y at hxy
      rw [edge_link, if_neg (fun h => hmp x hx h.1)] at hxy
      exact hg.minEdge x b y hx hxy
    · intro x b y hx hxy
      change (g.heap.link p l m).edge x b = some y at hxy
      rw [edge_link] at hxy
      by_cases hxp : x = p ∧ b = l
      · rw [if_pos hxp, Option.some.injEq] at hxy
        exact Or.inl (hxy ▸ hm)
      · rw [if_neg hxp] at hxy
        rcases hg.pathEdge x b y (hsub x hx) hxy with h | h
        · exact Or.inl h
        · right
          rw [hu] at h
          rcases List.mem_cons.mp h with h | h
          · simp only [Prod.mk.injEq] at h
            exact absurd ⟨h.1, h.2.1⟩ hxp
          · exact h
    · intro a b d h x hx
      change x ∈ Dict.keys ((g.heap.link p l m) a).edges at hx
      rw [hkeys] at hx
      exact hg.label a b d (hmemt _ h) x hx
    · intro s hs w hw
      change (g.heap.link p l m).run g.root w = some (topOf g.root s) at hw
      rcases run_redirect hpc hpm he htw g.root w with h | ⟨-, h⟩
      · rw [h] at hw
        exact hg.unique s (hs.trans hsuf) w hw
      · rw [h, Option.some.injEq] at hw
        exact absurd (hsub _ (topOf_mem g.root hs)) (hw ▸ hg.disj m hm)
    · intro x
      change (Dict.keys ((g.heap.link p l m) x).edges).Nodup
      rw [hkeys]; exact hg.keysNodup x
    · intro x hx
      obtain ⟨w, hw⟩ := hg.live x hx
      exact ⟨w, (hacc x w).mpr hw⟩
    · intro x hx
      obtain ⟨w, hw⟩ := hg.reach x hx
      refine ⟨w, ?_⟩
      rcases run_redirect hpc hpm he htw g.root w with h | ⟨h, -⟩
      · exact h.trans hw
      · rw [h, Option.some.injEq] at hw
        exact absurd hcp (hw ▸ hg.disj x hx)
    · intro x
      change ((g.heap.link p l m) x).leafCount = none ∧ ((g.heap.link p l m) x).finalEdges = none
      unfold Heap.link Heap.put
      by_cases hx : x = p
      · subst hx; simpa using hg.clean x
      · simpa [hx] using hg.clean x
  | none =>
    simp only
    have hmin : ∀ x, (∃ k, Dict.get? (Dict.set g.minimized (g.heap c).key c) k = some x) ↔ x = c ∨ g.Min x := by
      intro x
      constructor
      · rintro ⟨k, hk'⟩
        rw [Dict.get?_set] at hk'
        split at hk'
        · cases hk'; exact Or.inl rfl
        · exact Or.inr ⟨k, hk'⟩
      · rintro (rfl | ⟨k, hk'⟩)
        · exact ⟨_, by rw [Dict.get?_set, if_pos rfl]⟩
        · refine ⟨k, ?_⟩
          rw [Dict.get?_set, if_neg]
          · exact hk'
          · rintro rfl; rw [hk] at hk'; cases hk'
    refine ⟨⟨fun x hx => hg.allocPath x (hsub x hx), ?_, hch.2, fun a b d h => hg.link a b d (hmemt _ h),
      hndt, ?_, ?_, ?_, ?_, fun a b d h => hg.label a b d (hmemt _ h),
      fun s hs w hw => hg.unique s (hs.trans hsuf) w hw, hg.keysNodup, ?_, ?_, hg.clean,
      Dict.nodup_keys_set hg.minNodup _ _⟩, trivial, ⟨rfl, rfl, rfl, rfl, fun _ _ => Iff.rfl, fun _ => rfl⟩⟩
    · intro x hx
      rcases (hmin x).mp hx with rfl | hx
      · exact hg.allocPath x hcp
      · exact hg.allocMin x hx
    · intro k x hx
      change Dict.get? (Dict.set g.minimized (g.heap c).key c) k = some x at hx
      rw [Dict.get?_set] at hx
      split at hx
      · rename_i hkk
        cases hx
        exact hkk
      · exact hg.minKey k x hx
    · intro x b y hx hxy
      refine (hmin y).mpr (Or.inr ?_)
      rcases (hmin x).mp hx with rfl | hx
      · rcases hg.pathEdge x b y hcp hxy with h | h
        · exact h
        · exact absurd (hpar _ _ _ h) hct
      · exact hg.minEdge x b y hx hxy
    · intro x hx h
      rcases (hmin x).mp hx with rfl | hx
      · exact hct h
      · exact hg.disj x hx (hsub x h)
    · intro x b y hx hxy
      rcases hg.pathEdge x b y (hsub x hx) hxy with h | h
      · exact Or.inl ((hmin y).mpr (Or.inr h))
      · rw [hu] at h
        rcases List.mem_cons.mp h with h | h
        · simp only [Prod.mk.injEq] at h
          obtain ⟨rfl, rfl, rfl⟩ := h
          exact Or.inl ((hmin y).mpr (Or.inl rfl))
        · exact Or.inr h
    · intro x hx
      rcases (hmin x).mp hx with rfl | hx
      · exact hl
      · exact hg.live x hx
    · intro x hx
      rcases (hmin x).mp hx with rfl | hx
      · have := run_letters hg.chain hg.link
        rw [hu] at this
        exact ⟨_, this⟩
      · exact hg.reach x hx

/-- The children of unchecked edges are live. -/
def Graph.PathLive (g : Graph α δ) : Prop := ∀ e ∈ g.unchecked, ∃ w, g.heap.acc e.2.2 w

theorem Same.trans {g g' g'' : Graph α δ} (h : Same g g') (h' : Same g' g'') : Same g g'' :=
  ⟨h'.root.trans h.root, h'.nextId.trans h.nextId, h'.prev.trans h.prev, h'.data.trans h.data,
    fun x w => (h'.acc x w).trans (h.acc x w), fun x => (h'.keys x).trans (h.keys x)⟩

theorem Core.minimizeN {g : Graph α δ} (hg : Core g) (hl : g.PathLive) (n : ℕ)
    (hn : n ≤ g.unchecked.length) :
    Core (g.minimizeN n) ∧ (g.minimizeN n).unchecked = g.unchecked.drop n ∧ Same g (g.minimizeN n) := by
  induction n generalizing g with
  | zero => exact ⟨hg, rfl, ⟨rfl, rfl, rfl, rfl, fun _ _ => Iff.rfl, fun _ => rfl⟩⟩
  | succ n ih =>
    cases hu : g.unchecked with
    | nil => rw [hu] at hn; simp at hn
    | cons e t =>
      obtain ⟨p, l, c⟩ := e
      obtain ⟨h1, h2, h3⟩ := hg.minimizeStep hu (hl (p, l, c) (by rw [hu]; simp))
      have hl' : g.minimizeStep.PathLive := by
        intro e he
        rw [h2] at he
        obtain ⟨w, hw⟩ := hl e (by rw [hu]; exact List.mem_cons_of_mem _ he)
        exact ⟨w, (h3.acc _ _).mpr hw⟩
      obtain ⟨i1, i2, i3⟩ := ih h1 hl' (by rw [h2]; rw [hu] at hn; simpa using hn)
      refine ⟨i1, ?_, h3.trans i3⟩
      simp only [Graph.minimizeN]
      rw [i2, h2, List.drop_succ_cons]

end Dawg
end Verif
