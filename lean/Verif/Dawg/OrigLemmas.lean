import Verif.Dawg.OrigModel
import Verif.Dawg.Text
import Verif.Dawg.ReadLemmas

/-!
# The original word graph goes through the same states as dawg.py
-/

namespace Verif
namespace Dawg

open DawgSpec

variable {δ : Type} {hash : List Char → ℤ}

section

variable {α : Type} [LinearOrder α]

/-! ### The edges of a node are in the order of their labels -/

/-- Labels come in increasing order. -/
def Srt (h : Heap α) : Prop := ∀ x, (Dict.keys (h x).edges).Pairwise (· < ·)

theorem sortEdges_of_srt {e : Dict α ℕ} (h : (Dict.keys e).Pairwise (· < ·)) :
    sortEdges e = e := by
  have h' : List.Pairwise (fun a b : α × ℕ => a.1 ≤ b.1) e :=
    (List.pairwise_map.1 h).imp fun h => le_of_lt h
  exact List.Pairwise.insertionSort_eq h'

theorem srt_minimizeN {g : Graph α δ} (hg : Core g) (hl : g.PathLive) (hs : Srt g.heap) (n : ℕ)
    (hn : n ≤ g.unchecked.length) : Srt (g.minimizeN n).heap := by
  obtain ⟨-, -, h⟩ := hg.minimizeN hl n hn
  intro x
  rw [h.keys]
  exact hs x

theorem srt_addLetters (ls : List α) : ∀ (g : Graph α δ) (node : ℕ), Srt g.heap →
    node < g.nextId → (∀ a l, ls = a :: l → ∀ b ∈ Dict.keys (g.heap node).edges, b < a) →
    Srt (g.addLetters node ls).1.heap := by
  induction ls with
  | nil => intro g node hs _ _; exact hs
  | cons a ls ih =>
    intro g node hs hn hlt
    rw [Graph.addLetters]
    have hne : g.nextId ≠ node := by omega
    apply ih
    · intro x
      simp only [Heap.link, Heap.put]
      by_cases hx : x = node
      · subst hx
        simp only [if_true, if_neg hne.symm]
        rw [Dict.keys_set]
        split_ifs with h
        · exact hs x
        · rw [List.pairwise_append]
          exact ⟨hs x, by simp, by simpa using hlt a ls rfl⟩
      · simp only [if_neg hx]
        by_cases hx' : x = g.nextId
        · simp [hx', Node.new]
        · rw [if_neg hx']; exact hs x
    · exact Nat.lt_succ_self _
    · intro b l _ c hc
      simp [Heap.link, Heap.put, hne, Node.new] at hc

theorem minimizeN_nextId (n : ℕ) (g : Graph α δ) : (g.minimizeN n).nextId = g.nextId := by
  induction n generalizing g with
  | zero => rfl
  | succ n ih =>
    rw [Graph.minimizeN, ih]
    unfold Graph.minimizeStep
    split
    · rfl
    · split <;> rfl

omit [LinearOrder α] in
theorem top_eq (g : Graph α δ) : g.top = topOf g.root g.unchecked := by
  unfold Graph.top topOf
  cases g.unchecked <;> rfl

theorem build_srt (ps : List (List α × δ)) : Srt (Graph.build ps).heap := by
  induction ps using List.reverseRecOn with
  | nil => intro x; simp [Graph.build, Graph.new, Node.new]
  | append_singleton ps p ih =>
    have h1 : Graph.build (ps ++ [p]) = (Graph.build ps).call p := by simp [Graph.build]
    rw [h1]
    have hinv := (build_inv ps).1
    generalize Graph.build ps = g at ih hinv
    unfold Graph.call Graph.insert
    by_cases hlt : g.previousWord < p.1
    · rw [if_pos hlt]
      dsimp only
      have hlen : g.unchecked.length - commonPrefix p.1 g.previousWord ≤ g.unchecked.length := by
        omega
      obtain ⟨m1, -, -⟩ := hinv.core.minimizeN hinv.pathLive _ hlen
      have hs := srt_minimizeN hinv.core hinv.pathLive ih _ hlen
      have ht := fun a l hal => hinv.top_labels hlt (a := a) (l := l) hal
      unfold Graph.minimizeUnchecked at ht ⊢
      generalize g.minimizeN (g.unchecked.length - commonPrefix p.1 g.previousWord) = g1
        at m1 hs ht ⊢
      have hs2 := srt_addLetters (List.drop (commonPrefix p.1 g.previousWord) p.1)
        { g1 with data := g1.data ++ [p.2] } (topOf g1.root g1.unchecked) hs
        (m1.allocPath _ (topOf_mem _ (List.suffix_refl _))) (fun a l hal => ht a l hal)
      have htop : ({ g1 with data := g1.data ++ [p.2] } : Graph α δ).top =
          topOf g1.root g1.unchecked := top_eq _
      simp only [htop]
      intro x
      simp only [Heap.put]
      split_ifs with h
      · exact hs2 _
      · exact hs2 x
    · rw [if_neg hlt]
      exact ih

end

/-- Texts of sorted nodes are equal exactly when the keys of dawg.py are. -/
theorem text_eq_iff {n n' : Node Char} (h : (Dict.keys n.edges).Pairwise (· < ·))
    (h' : (Dict.keys n'.edges).Pairwise (· < ·)) :
    origText n.terminal n.edges = origText n'.terminal n'.edges ↔ n.key = n'.key := by
  unfold Node.key
  rw [sortEdges_of_srt h, sortEdges_of_srt h']
  constructor
  · intro e
    obtain ⟨e1, e2⟩ := origText_inj e
    rw [e1, e2]
  · intro e
    simp only [Prod.mk.injEq] at e
    rw [e.1, e.2]

/-! ### The simulation -/

/-- The two graphs agree. -/
structure Sim (hash : List Char → ℤ) (g : Graph Char δ) (o : OGraph δ) : Prop where
  final : ∀ x, (o.heap x).final = (g.heap x).terminal
  edges : ∀ x, (o.heap x).edges = (g.heap x).edges
  count : ∀ x, (o.heap x).count = 0
  nextId : o.nextId = g.nextId
  prev : o.previousWord = g.previousWord
  root : o.root = g.root
  unchecked : o.unchecked = g.unchecked
  data : o.data = g.data
  mini : o.minimized =
    g.minimized.map fun p => (hash (origText (g.heap p.2).terminal (g.heap p.2).edges), p.2)

theorem Sim.text {g : Graph Char δ} {o : OGraph δ} (h : Sim hash g o) (x : ℕ) :
    (o.heap x).text = origText (g.heap x).terminal (g.heap x).edges := by
  unfold ONode.text
  rw [h.final, h.edges]

theorem find_dict {κ : Type} [DecidableEq κ] (m : Dict κ ℕ) (k : κ) (f : κ × ℕ → ℤ × ℕ)
    (P : ℤ × ℕ → Bool) (hf : ∀ p, (f p).2 = p.2) (hP : ∀ p ∈ m, P (f p) = true ↔ p.1 = k) :
    ((m.map f).find? P).map Prod.snd = Dict.get? m k := by
  induction m with
  | nil => rfl
  | cons p m ih =>
    have i := ih fun q hq => hP q (List.mem_cons_of_mem _ hq)
    have hp := hP p List.mem_cons_self
    obtain ⟨k', v⟩ := p
    rw [List.map_cons, List.find?_cons, Dict.get?_cons]
    by_cases h : k' = k
    · rw [hp.2 h, if_pos h]
      simp [hf]
    · have : P (f (k', v)) = false := by
        cases e : P (f (k', v))
        · rfl
        · exact absurd (hp.1 e) h
      rw [this, if_neg h]
      exact i

theorem Sim.find {g : Graph Char δ} {o : OGraph δ} (h : Sim hash g o) (hg : Core g)
    (hs : Srt g.heap) (c : ℕ) : o.find hash c = Dict.get? g.minimized (g.heap c).key := by
  unfold OGraph.find
  rw [h.mini]
  apply find_dict
  · intro p; rfl
  · rintro ⟨k, m⟩ hp
    have hk := hg.minKey k m ((Dict.mem_iff_get? hg.minNodup).1 hp)
    rw [decide_eq_true_iff, h.text, h.text]
    simp only
    rw [← hk, ← text_eq_iff (hs m) (hs c)]
    constructor
    · rintro ⟨_, rfl | e⟩
      · rfl
      · exact e
    · intro e
      exact ⟨by rw [e], Or.inr e⟩

theorem set_append {κ : Type} [DecidableEq κ] {m : Dict κ ℕ} {k : κ} {v : ℕ}
    (h : Dict.get? m k = none) : Dict.set m k v = m ++ [(k, v)] := by
  induction m with
  | nil => rfl
  | cons p m ih =>
    obtain ⟨k', v'⟩ := p
    rw [Dict.get?_cons] at h
    split_ifs at h with e
    rw [Dict.set, if_neg e, ih h]
    rfl

theorem Sim.minimizeStep {g : Graph Char δ} {o : OGraph δ} (h : Sim hash g o) (hg : Core g)
    (hs : Srt g.heap) : Sim hash g.minimizeStep (o.minimizeStep hash) := by
  unfold Graph.minimizeStep OGraph.minimizeStep
  rw [h.unchecked]
  cases hu : g.unchecked with
  | nil => exact h
  | cons e rest =>
    obtain ⟨p, l, c⟩ := e
    simp only
    rw [h.find hg hs c]
    have hp : p ∈ pathNodes g.root g.unchecked := by
      have hch := hg.chain
      rw [hu] at hch
      have : p = topOf g.root rest := hch.1
      rw [this]
      exact topOf_mem _ (by rw [hu]; exact List.suffix_cons _ _)
    cases hm : Dict.get? g.minimized (g.heap c).key with
    | none =>
      refine ⟨h.final, h.edges, h.count, h.nextId, h.prev, h.root, rfl, h.data, ?_⟩
      simp only
      rw [set_append hm, List.map_append, h.mini, h.text]
      rfl
    | some m =>
      refine ⟨?_, ?_, ?_, h.nextId, h.prev, h.root, rfl, h.data, ?_⟩
      · intro x
        simp only [OHeap.link, OHeap.put, Heap.link, Heap.put]
        split_ifs
        · exact h.final p
        · exact h.final x
      · intro x
        simp only [OHeap.link, OHeap.put, Heap.link, Heap.put]
        split_ifs
        · simp only [h.edges p]
        · exact h.edges x
      · intro x
        simp only [OHeap.link, OHeap.put]
        split_ifs
        · exact h.count p
        · exact h.count x
      · simp only
        rw [h.mini]
        apply List.map_congr_left
        rintro ⟨k, v⟩ hv
        have hv' : g.Min v := ⟨k, (Dict.mem_iff_get? hg.minNodup).1 hv⟩
        have hne : v ≠ p := fun e => hg.disj v hv' (e ▸ hp)
        simp only
        rw [link_other _ _ _ _ _ hne]

theorem Sim.minimizeN (n : ℕ) : ∀ {g : Graph Char δ} {o : OGraph δ}, Sim hash g o → Core g →
    g.PathLive → Srt g.heap → n ≤ g.unchecked.length →
    Sim hash (g.minimizeN n) (o.minimizeN hash n) := by
  induction n with
  | zero => intro g o h _ _ _ _; exact h
  | succ n ih =>
    intro g o h hg hl hs hn
    obtain ⟨c1, c2, c3⟩ := hg.minimizeN hl 1 (by omega)
    have hs1 := srt_minimizeN hg hl hs 1 (by omega)
    refine ih (h.minimizeStep hg hs) c1 ?_ hs1 ?_
    · intro e he
      have he' : e ∈ (g.minimizeN 1).unchecked := he
      rw [c2] at he'
      obtain ⟨w, hw⟩ := hl e (List.mem_of_mem_drop he')
      exact ⟨w, (c3.acc _ _).mpr hw⟩
    · have : g.minimizeStep.unchecked = g.unchecked.drop 1 := c2
      rw [this, List.length_drop]
      omega

theorem Sim.addLetters (ls : List Char) : ∀ {g : Graph Char δ} {o : OGraph δ} (node : ℕ),
    Sim hash g o → (∀ p ∈ g.minimized, p.2 < g.nextId ∧ p.2 ≠ node) →
    Sim hash (g.addLetters node ls).1 (o.addLetters node ls).1 ∧
      (o.addLetters node ls).2 = (g.addLetters node ls).2 := by
  induction ls with
  | nil => intro g o node h _; exact ⟨h, rfl⟩
  | cons a ls ih =>
    intro g o node h hm
    rw [Graph.addLetters, OGraph.addLetters, h.nextId]
    apply ih
    · refine ⟨?_, ?_, ?_, rfl, h.prev, h.root, by rw [h.unchecked], h.data, ?_⟩
      · intro x
        simp only [OHeap.link, OHeap.put, Heap.link, Heap.put]
        split_ifs <;> first | rfl | exact h.final _
      · intro x
        simp only [OHeap.link, OHeap.put, Heap.link, Heap.put]
        split_ifs <;> first | rfl | simp only [h.edges]
      · intro x
        simp only [OHeap.link, OHeap.put]
        split_ifs <;> first | rfl | exact h.count _
      · simp only
        rw [h.mini]
        apply List.map_congr_left
        rintro ⟨k, v⟩ hv
        obtain ⟨h1, h2⟩ := hm _ hv
        simp only at h1 h2 ⊢
        rw [link_other _ _ _ _ _ h2]
        simp [Heap.put, Nat.ne_of_lt h1]
    · intro p hp
      obtain ⟨h1, h2⟩ := hm p hp
      simp only
      exact ⟨by omega, by omega⟩

theorem origCommon_eq (w v : List Char) : origCommon w v = commonPrefix w v := by
  induction w generalizing v with
  | nil => rfl
  | cons i is ih =>
    cases v with
    | nil => rfl
    | cons j js =>
      unfold origCommon commonPrefix
      by_cases h : i = j
      · rw [if_neg (by simpa using h), if_pos h, ih]
      · rw [if_pos (by simpa using h), if_neg h]

theorem Sim.insert {g : Graph Char δ} {o : OGraph δ} {ps : List (List Char × δ)} (h : Sim hash g o)
    (hg : Inv g ps) (hs : Srt g.heap) (w : List Char) (d : δ) :
    (g.previousWord < w → ∃ g' o', g.insert w d = .ok g' ∧ o.insert hash w d = some o' ∧
      Sim hash g' o') ∧
    (¬ g.previousWord < w → o.insert hash w d = none) := by
  constructor
  · intro hw
    unfold Graph.insert OGraph.insert
    rw [h.prev, if_pos hw, if_neg (not_le.2 hw), origCommon_eq]
    refine ⟨_, _, rfl, rfl, ?_⟩
    unfold Graph.minimizeUnchecked OGraph.minimize
    rw [h.unchecked]
    have hlen : g.unchecked.length - commonPrefix w g.previousWord ≤ g.unchecked.length := by omega
    have hsim := h.minimizeN (g.unchecked.length - commonPrefix w g.previousWord) hg.core hg.pathLive
      hs hlen
    obtain ⟨m1, -, -⟩ := hg.core.minimizeN hg.pathLive _ hlen
    generalize g.minimizeN (g.unchecked.length - commonPrefix w g.previousWord) = g1 at hsim m1
    generalize o.minimizeN hash (g.unchecked.length - commonPrefix w g.previousWord) = o1 at hsim
    have hsim' : Sim hash { g1 with data := g1.data ++ [d] } { o1 with data := o1.data ++ [d] } :=
      ⟨hsim.final, hsim.edges, hsim.count, hsim.nextId, hsim.prev, hsim.root, hsim.unchecked,
        by simp only [hsim.data], hsim.mini⟩
    have htop : ({ o1 with data := o1.data ++ [d] } : OGraph δ).top =
        ({ g1 with data := g1.data ++ [d] } : Graph Char δ).top := by
      unfold OGraph.top Graph.top
      simp only [hsim.unchecked, hsim.root]
      cases g1.unchecked <;> rfl
    rw [htop]
    have hmin : ∀ p ∈ g1.minimized, p.2 < g1.nextId ∧
        p.2 ≠ ({ g1 with data := g1.data ++ [d] } : Graph Char δ).top := by
      rintro ⟨k, v⟩ hv
      have hv' : g1.Min v := ⟨k, (Dict.mem_iff_get? m1.minNodup).1 hv⟩
      refine ⟨m1.allocMin v hv', fun e => m1.disj v hv' ?_⟩
      simp only at e
      rw [e, top_eq]
      exact topOf_mem _ (List.suffix_refl _)
    obtain ⟨s1, s2⟩ := hsim'.addLetters (w.drop (commonPrefix w g.previousWord)) _ hmin
    have hmin2 : ∀ (ls : List Char) (g : Graph Char δ) (node : ℕ),
        (∀ p ∈ g.minimized, p.2 < g.nextId ∧ p.2 ≠ node) →
        ∀ p ∈ (g.addLetters node ls).1.minimized, p.2 ≠ (g.addLetters node ls).2 := by
      intro ls
      induction ls with
      | nil => intro g node hm p hp; exact (hm p hp).2
      | cons a ls ih =>
        intro g node hm
        rw [Graph.addLetters]
        apply ih
        intro p hp
        have := (hm p hp).1
        simp only
        exact ⟨by omega, by omega⟩
    have hmin3 := hmin2 (w.drop (commonPrefix w g.previousWord))
      { g1 with data := g1.data ++ [d] } _ hmin
    generalize ({ g1 with data := g1.data ++ [d] } : Graph Char δ).addLetters
      ({ g1 with data := g1.data ++ [d] } : Graph Char δ).top
      (w.drop (commonPrefix w g.previousWord)) = r at s1 s2 hmin3
    generalize ({ o1 with data := o1.data ++ [d] } : OGraph δ).addLetters
      ({ g1 with data := g1.data ++ [d] } : Graph Char δ).top
      (w.drop (commonPrefix w g.previousWord)) = r' at s1 s2
    obtain ⟨g2, x⟩ := r
    obtain ⟨o2, x'⟩ := r'
    simp only at s1 s2 hmin3 ⊢
    subst s2
    refine ⟨?_, ?_, ?_, s1.nextId, rfl, s1.root, s1.unchecked, s1.data, ?_⟩
    · intro y
      simp only [OHeap.put, Heap.put]
      split_ifs
      · rfl
      · exact s1.final y
    · intro y
      simp only [OHeap.put, Heap.put]
      split_ifs
      · exact s1.edges _
      · exact s1.edges y
    · intro y
      simp only [OHeap.put]
      split_ifs
      · exact s1.count _
      · exact s1.count y
    · simp only
      rw [s1.mini]
      apply List.map_congr_left
      rintro ⟨k, v⟩ hv
      have := hmin3 _ hv
      simp only at this ⊢
      simp [Heap.put, this]
  · intro hw
    unfold OGraph.insert
    rw [h.prev, if_pos (not_lt.1 hw)]

theorem build_sim (hash : List Char → ℤ) (ps : List (List Char × δ)) :
    Sim hash (Graph.build ps) (OGraph.build hash ps) := by
  induction ps using List.reverseRecOn with
  | nil => exact ⟨fun _ => rfl, fun _ => rfl, fun _ => rfl, rfl, rfl, rfl, rfl, rfl, rfl⟩
  | append_singleton ps p ih =>
    have h1 : Graph.build (ps ++ [p]) = (Graph.build ps).call p := by simp [Graph.build]
    have h2 : OGraph.build hash (ps ++ [p]) = (OGraph.build hash ps).call hash p := by
      simp [OGraph.build]
    rw [h1, h2]
    obtain ⟨i1, i2⟩ := ih.insert (build_inv ps).1 (build_srt ps) p.1 p.2
    unfold Graph.call OGraph.call
    by_cases hlt : (Graph.build ps).previousWord < p.1
    · obtain ⟨g', o', e1, e2, e3⟩ := i1 hlt
      rw [e1, e2]
      exact e3
    · rw [i2 hlt]
      have : (Graph.build ps).insert p.1 p.2 = .error .assertionError := by
        unfold Graph.insert; rw [if_neg hlt]
      rw [this]
      exact ih

end Dawg
end Verif
