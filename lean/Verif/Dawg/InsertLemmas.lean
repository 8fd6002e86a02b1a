import Verif.Dawg.CoreLemmas
import Verif.Dawg.Spec

/-!
# `insert` keeps the invariant
-/

namespace Verif
namespace Dawg

variable {α δ : Type} [LinearOrder α]

omit [LinearOrder α] in
theorem parent_mem {root : ℕ} {s : List (ℕ × α × ℕ)} (hc : ChainOk root s) {a : ℕ} {b : α} {d : ℕ}
    (h : (a, b, d) ∈ s) : a ∈ pathNodes root s.tail := by
  induction s with
  | nil => simp at h
  | cons e s ih =>
    rcases List.mem_cons.mp h with h | h
    · have := hc.1
      rw [← h] at this
      simp only at this
      rw [this]
      exact topOf_mem _ (List.suffix_refl _)
    · have := ih hc.2 h
      simp only [List.tail_cons]
      cases s with
      | nil => simp at h
      | cons e' s' =>
        simp only [List.tail_cons, pathNodes, List.map_cons, List.mem_cons] at this ⊢
        tauto

theorem Core.parent_ne_top {g : Graph α δ} (hg : Core g) {p : ℕ} {l : α} {c : ℕ}
    (h : (p, l, c) ∈ g.unchecked) : p ≠ topOf g.root g.unchecked := by
  intro e
  have h1 := parent_mem hg.chain h
  have h2 := hg.nodup
  cases hu : g.unchecked with
  | nil => rw [hu] at h; simp at h
  | cons e' s =>
    obtain ⟨p', l', c'⟩ := e'
    rw [hu] at h1 h2 e
    simp only [List.tail_cons, topOf] at h1 e
    subst e
    simp only [pathNodes, List.map_cons, List.nodup_cons, List.mem_cons, not_or] at h1 h2
    rcases h1 with h1 | h1
    · exact h2.1.1 h1.symm
    · exact h2.2.1 h1

/-- One round of the loop of `insert`. -/
def Graph.addLetter (g : Graph α δ) (x : ℕ) (a : α) : Graph α δ :=
  { g with
    heap := (g.heap.put g.nextId Node.new).link x a g.nextId
    nextId := g.nextId + 1
    unchecked := (x, a, g.nextId) :: g.unchecked }

theorem Core.run_used {g : Graph α δ} (hg : Core g) {w : List α} {t : ℕ}
    (h : g.heap.run g.root w = some t) : g.Used t := by
  induction w using List.reverseRecOn generalizing t with
  | nil =>
    simp only [Heap.run, Option.some.injEq] at h
    exact h ▸ Core.used_root g
  | append_singleton w c ih =>
    rw [run_snoc] at h
    obtain ⟨s, hs, hst⟩ := Option.bind_eq_some_iff.mp h
    exact hg.closed _ _ _ (ih hs) hst

theorem Core.addLetter {g : Graph α δ} (hg : Core g) {a : α}
    (hlt : ∀ b ∈ Dict.keys (g.heap (topOf g.root g.unchecked)).edges, b < a) :
    Core (g.addLetter (topOf g.root g.unchecked) a) ∧
    (∀ w, (g.addLetter (topOf g.root g.unchecked) a).heap.acc g.root w ↔ g.heap.acc g.root w) ∧
    Dict.keys ((g.addLetter (topOf g.root g.unchecked) a).heap g.nextId).edges = [] := by
  generalize hx : topOf g.root g.unchecked = x at hlt
  have hxp : x ∈ pathNodes g.root g.unchecked := by
    rw [← hx]; exact topOf_mem _ (List.suffix_refl _)
  have hxy : x ≠ g.nextId := ne_of_lt (hg.allocPath x hxp)
  have hnew : g.heap.edge x a = none := by
    unfold Heap.edge
    rw [Dict.get?_eq_none]
    intro h
    exact lt_irrefl _ (hlt a h)
  have hy : ¬ g.Used g.nextId := fun h => lt_irrefl _ (hg.used_lt h)
  have hrun := fun z hz w t => run_grow (h := g.heap) (x := x) (y := g.nextId) (a := a) g.Used
    hg.closed hy (Or.inl hxp) hnew z hz w t
  have hheap : (g.addLetter x a).heap = g.heap.grow x a g.nextId := rfl
  have hpath : pathNodes g.root (g.addLetter x a).unchecked =
      g.root :: g.nextId :: g.unchecked.map (fun e => e.2.2) := rfl
  have hpm : ∀ z, z ∈ pathNodes g.root (g.addLetter x a).unchecked ↔
      z = g.nextId ∨ z ∈ pathNodes g.root g.unchecked := by
    intro z
    rw [hpath]
    simp only [pathNodes, List.mem_cons]
    tauto
  have hmin : ∀ z, (g.addLetter x a).Min z ↔ g.Min z := fun z => Iff.rfl
  have hmx : ∀ z, g.Min z → z ≠ x := fun z hz e => hg.disj z hz (e ▸ hxp)
  have hmy : ∀ z, g.Min z → z ≠ g.nextId := fun z hz => ne_of_lt (hg.allocMin z hz)
  have hpy : ∀ z ∈ pathNodes g.root g.unchecked, z ≠ g.nextId := fun z hz => ne_of_lt (hg.allocPath z hz)
  have hparent : ∀ p l c, (p, l, c) ∈ g.unchecked → p ∈ pathNodes g.root g.unchecked := by
    intro p l c h
    have := parent_mem hg.chain h
    cases hu : g.unchecked with
    | nil => rw [hu] at h; simp at h
    | cons e s =>
      rw [hu] at this
      simp only [pathNodes, List.tail_cons, List.map_cons, List.mem_cons] at this ⊢
      tauto
  have hkeysx : Dict.keys ((g.heap.grow x a g.nextId) x).edges = Dict.keys (g.heap x).edges ++ [a] := by
    unfold Heap.grow Heap.link Heap.put
    simp only [if_true, hxy, if_false]
    rw [Dict.keys_set, if_neg (fun h => lt_irrefl _ (hlt a h))]
  have hkeysy : Dict.keys ((g.heap.grow x a g.nextId) g.nextId).edges = [] := by
    unfold Heap.grow
    rw [link_other _ _ _ _ _ hxy.symm]
    simp [Heap.put, Node.new]
  refine ⟨⟨?_, ?_, ⟨hx.symm, hg.chain⟩, ?_, ?_, ?_, ?_, ?_, ?_, ?_, ?_, ?_, ?_, ?_, ?_, hg.minNodup⟩, ?_, hkeysy⟩
  · intro z hz
    change z < g.nextId + 1
    rcases (hpm z).mp hz with rfl | hz
    · omega
    · have := hg.allocPath z hz; omega
  · intro m hm
    change m < g.nextId + 1
    have := hg.allocMin m hm; omega
  · intro p l c h
    rw [hheap, edge_grow]
    rcases List.mem_cons.mp h with h | h
    · simp only [Prod.mk.injEq] at h
      obtain ⟨rfl, rfl, rfl⟩ := h
      simp
    · have hl := hg.link p l c h
      rw [if_neg, if_neg (hpy p (hparent _ _ _ h))]
      · exact hl
      · rintro ⟨rfl, rfl⟩; rw [hnew] at hl; cases hl
  · change (g.root :: g.nextId :: g.unchecked.map (fun e => e.2.2)).Nodup
    have h1 := hg.nodup
    have h2 : g.nextId ∉ pathNodes g.root g.unchecked := fun h => lt_irrefl _ (hg.allocPath _ h)
    simp only [pathNodes, List.nodup_cons, List.mem_cons, not_or] at h1 h2 ⊢
    exact ⟨⟨fun e => h2.1 e.symm, h1.1⟩, h2.2, h1.2⟩
  · intro k m hk
    rw [hheap, grow_other _ _ _ _ _ (hmx m ⟨k, hk⟩) (hmy m ⟨k, hk⟩)]
    exact hg.minKey k m hk
  · intro m c y hm he
    rw [hheap, edge_grow, if_neg (fun h => hmx m hm h.1), if_neg (hmy m hm)] at he
    exact hg.minEdge m c y hm he
  · intro m hm h
    rcases (hpm m).mp h with rfl | h
    · exact hmy _ hm rfl
    · exact hg.disj m hm h
  · intro z c y hz he
    rw [hheap, edge_grow] at he
    by_cases hc : z = x ∧ c = a
    · rw [if_pos hc, Option.some.injEq] at he
      obtain ⟨rfl, rfl⟩ := hc
      subst he
      exact Or.inr (List.mem_cons_self)
    · rw [if_neg hc] at he
      rcases (hpm z).mp hz with rfl | hz
      · rw [if_pos rfl] at he; cases he
      · rw [if_neg (hpy z hz)] at he
        rcases hg.pathEdge z c y hz he with h | h
        · exact Or.inl h
        · exact Or.inr (List.mem_cons_of_mem _ h)
  · intro p l c h b hb
    rw [hheap] at hb
    rcases List.mem_cons.mp h with h | h
    · simp only [Prod.mk.injEq] at h
      obtain ⟨rfl, rfl, rfl⟩ := h
      rw [hkeysx] at hb
      rcases List.mem_append.mp hb with hb | hb
      · exact le_of_lt (hlt b hb)
      · exact le_of_eq (List.mem_singleton.mp hb)
    · have hpx : p ≠ x := by rw [← hx]; exact hg.parent_ne_top h
      rw [grow_other _ _ _ _ _ hpx (hpy p (hparent _ _ _ h))] at hb
      exact hg.label p l c h b hb
  · intro t ht w hw
    change (g.heap.grow x a g.nextId).run g.root w = _ at hw
    rcases List.suffix_cons_iff.mp ht with rfl | ht
    · rcases (hrun g.root (Core.used_root g) w _).mp hw with h | ⟨-, u, rfl, hu⟩
      · exact absurd (hg.run_used h) hy
      · have := hg.unique g.unchecked (List.suffix_refl _) u (by rw [hx]; exact hu)
        rw [this]
        simp [lettersOf]
    · rcases (hrun g.root (Core.used_root g) w _).mp hw with h | ⟨h, -⟩
      · exact hg.unique t ht w h
      · have h2 := topOf_mem g.root ht
        have h3 : topOf g.root t = g.nextId := h
        rw [h3] at h2
        exact absurd rfl (hpy _ h2)
  · intro z
    rw [hheap]
    by_cases hz : z = x
    · subst hz
      rw [hkeysx, List.nodup_append]
      refine ⟨hg.keysNodup z, by simp, ?_⟩
      intro b hb c hc e
      rw [List.mem_singleton.mp hc] at e
      exact lt_irrefl _ (hlt a (e ▸ hb))
    · by_cases hz' : z = g.nextId
      · subst hz'; rw [hkeysy]; simp
      · rw [grow_other _ _ _ _ _ hz hz']; exact hg.keysNodup z
  · intro m hm
    obtain ⟨w, t, ht, hterm⟩ := hg.live m hm
    refine ⟨w, t, (hrun m (Or.inr hm) w t).mpr (Or.inl ht), ?_⟩
    rw [hheap, terminal_grow, if_neg, hterm]
    have : g.Used t := by
      clear hterm
      induction w using List.reverseRecOn generalizing t with
      | nil =>
        simp only [Heap.run, Option.some.injEq] at ht
        exact ht ▸ Or.inr hm
      | append_singleton w c ih =>
        rw [run_snoc] at ht
        obtain ⟨s, hs, hst⟩ := Option.bind_eq_some_iff.mp ht
        exact hg.closed _ _ _ (ih s hs) hst
    rintro rfl
    exact hy this
  · intro m hm
    obtain ⟨w, hw⟩ := hg.reach m hm
    exact ⟨w, (hrun g.root (Core.used_root g) w m).mpr (Or.inl hw)⟩
  · intro z
    rw [hheap]
    unfold Heap.grow Heap.link Heap.put
    by_cases hz : z = x
    · subst hz; simpa [hxy] using hg.clean z
    · by_cases hz' : z = g.nextId
      · subst hz'; simp [hz, Node.new]
      · simpa [hz, hz'] using hg.clean z
  · intro w
    constructor
    · rintro ⟨t, ht, hterm⟩
      rw [hheap, terminal_grow] at hterm
      rcases (hrun g.root (Core.used_root g) w t).mp ht with h | ⟨h, -⟩
      · refine ⟨t, h, ?_⟩
        split at hterm
        · cases hterm
        · exact hterm
      · rw [if_pos h] at hterm; cases hterm
    · rintro ⟨t, ht, hterm⟩
      refine ⟨t, (hrun g.root (Core.used_root g) w t).mpr (Or.inl ht), ?_⟩
      rw [hheap, terminal_grow, if_neg, hterm]
      rintro rfl
      exact hy (hg.run_used ht)

/-- The loop of `insert`. -/
theorem Core.addLetters (ls : List α) : ∀ {g : Graph α δ}, Core g →
    (∀ a l, ls = a :: l → ∀ b ∈ Dict.keys (g.heap (topOf g.root g.unchecked)).edges, b < a) →
    let r := g.addLetters (topOf g.root g.unchecked) ls
    Core r.1 ∧ r.2 = topOf g.root r.1.unchecked ∧ (∀ w, r.1.heap.acc g.root w ↔ g.heap.acc g.root w) ∧
      lettersOf r.1.unchecked = lettersOf g.unchecked ++ ls ∧ r.1.root = g.root ∧
      r.1.previousWord = g.previousWord ∧ r.1.data = g.data ∧ r.1.minimized = g.minimized ∧
      (ls ≠ [] → Dict.keys (r.1.heap r.2).edges = []) := by
  induction ls with
  | nil =>
    intro g hg _
    exact ⟨hg, rfl, fun _ => Iff.rfl, by simp [Graph.addLetters], rfl, rfl, rfl, rfl, fun h => absurd rfl h⟩
  | cons a ls ih =>
    intro g hg hlt
    obtain ⟨h1, h2, h3⟩ := hg.addLetter (hlt a ls rfl)
    have hu : (g.addLetter (topOf g.root g.unchecked) a).unchecked =
      (topOf g.root g.unchecked, a, g.nextId) :: g.unchecked := rfl
    have hr : (g.addLetter (topOf g.root g.unchecked) a).root = g.root := rfl
    have htop : topOf (g.addLetter (topOf g.root g.unchecked) a).root
        (g.addLetter (topOf g.root g.unchecked) a).unchecked = g.nextId := rfl
    have := ih h1 (by
      intro b l _ c hc
      rw [htop, h3] at hc
      simp at hc)
    rw [htop] at this
    obtain ⟨i1, i2, i3, i4, i5, i6, i7, i8, i9⟩ := this
    simp only [Graph.addLetters]
    refine ⟨i1, ?_, ?_, ?_, i5, i6, i7, i8, fun _ => ?_⟩
    · exact i2
    · intro w; exact (i3 w).trans (h2 w)
    · refine i4.trans ?_
      rw [hu]
      simp [lettersOf]
    · cases ls with
      | nil => exact h3
      | cons b ls => exact i9 (by simp)

/-- The letters from a child to the top. -/
theorem run_to_top {h : Heap α} {root : ℕ} {s : List (ℕ × α × ℕ)} (hc : ChainOk root s)
    (hl : ∀ p l c, (p, l, c) ∈ s → h.edge p l = some c) (e : ℕ × α × ℕ) (he : e ∈ s) :
    ∃ w, h.run e.2.2 w = some (topOf root s) := by
  induction s with
  | nil => simp at he
  | cons f s ih =>
    obtain ⟨p, l, c⟩ := f
    rcases List.mem_cons.mp he with rfl | he
    · exact ⟨[], rfl⟩
    · obtain ⟨w, hw⟩ := ih hc.2 (fun p l c h => hl p l c (List.mem_cons_of_mem _ h)) he
      refine ⟨w ++ [l], ?_⟩
      rw [run_snoc, hw]
      have hp : p = topOf root s := hc.1
      change h.edge (topOf root s) l = some c
      rw [← hp]
      exact hl p l c (by simp)

/-- The invariant between calls: the words inserted so far. -/
structure Inv (g : Graph α δ) (ps : List (List α × δ)) : Prop where
  core : Core g
  pathLive : g.PathLive
  letters : lettersOf g.unchecked = g.previousWord
  fresh : Dict.keys (g.heap (topOf g.root g.unchecked)).edges = []
  lang : ∀ w, g.heap.acc g.root w ↔ w ∈ ps.map Prod.fst
  data : g.data = ps.map Prod.snd
  sorted : (ps.map Prod.fst).Pairwise (· < ·)
  last : ∀ w ∈ ps.map Prod.fst, w ≤ g.previousWord
  rootNot : ¬ g.heap.acc g.root []

theorem commonPrefix_spec (w v : List α) : commonPrefix w v ≤ w.length ∧ commonPrefix w v ≤ v.length ∧
    w.take (commonPrefix w v) = v.take (commonPrefix w v) ∧
    (∀ a b, w[commonPrefix w v]? = some a → v[commonPrefix w v]? = some b → a ≠ b) := by
  induction w generalizing v with
  | nil => simp [commonPrefix]
  | cons i is ih =>
    cases v with
    | nil => simp [commonPrefix]
    | cons j js =>
      by_cases h : i = j
      · subst h
        obtain ⟨h1, h2, h3, h4⟩ := ih js
        simp only [commonPrefix, if_true, List.length_cons, List.take_succ_cons, h3, true_and,
          List.getElem?_cons_succ]
        exact ⟨by omega, by omega, h4⟩
      · simp only [commonPrefix, if_neg h, Nat.zero_le, List.take_zero, true_and,
          List.getElem?_cons_zero, Option.some.injEq]
        rintro a b rfl rfl
        exact h

theorem lt_common {v w : List α} (h : v < w) : commonPrefix w v < w.length ∧
    ∀ a b, w[commonPrefix w v]? = some a → v[commonPrefix w v]? = some b → b < a := by
  induction w generalizing v with
  | nil => simp at h
  | cons i is ih =>
    cases v with
    | nil => simp [commonPrefix]
    | cons j js =>
      rcases List.cons_lt_cons_iff.mp h with h | ⟨rfl, h'⟩
      · have hne : i ≠ j := fun e => lt_irrefl _ (e ▸ h)
        simp only [commonPrefix, if_neg hne, List.length_cons, List.getElem?_cons_zero,
          Option.some.injEq]
        refine ⟨by omega, ?_⟩
        rintro a b rfl rfl
        exact h
      · obtain ⟨h1, h2⟩ := ih h'
        simp only [commonPrefix, if_true, List.length_cons, List.getElem?_cons_succ]
        exact ⟨by omega, h2⟩

omit [LinearOrder α] in
theorem letters_drop (s : List (ℕ × α × ℕ)) (n : ℕ) :
    lettersOf (s.drop n) = (lettersOf s).take (s.length - n) := by
  unfold lettersOf
  rw [List.map_drop, List.reverse_drop, List.length_map]

/-- The letter that continues the common prefix is greater than all labels of the node where the rest
of the word is attached. -/
theorem Inv.top_labels {g : Graph α δ} {ps : List (List α × δ)} (hg : Inv g ps) {w : List α}
    (hw : g.previousWord < w) {a : α} {l : List α}
    (hal : w.drop (commonPrefix w g.previousWord) = a :: l) :
    ∀ b ∈ Dict.keys ((g.minimizeUnchecked (commonPrefix w g.previousWord)).heap
      (topOf (g.minimizeUnchecked (commonPrefix w g.previousWord)).root
        (g.minimizeUnchecked (commonPrefix w g.previousWord)).unchecked)).edges, b < a := by
  obtain ⟨c1, c2, c3, -⟩ := commonPrefix_spec w g.previousWord
  obtain ⟨l1, l2⟩ := lt_common hw
  have hlen : g.unchecked.length = g.previousWord.length := by
    rw [← hg.letters]; simp [lettersOf]
  generalize hcp : commonPrefix w g.previousWord = cp at c1 c2 c3 l1 l2 hal
  obtain ⟨m1, m2, m3⟩ := hg.core.minimizeN hg.pathLive (g.unchecked.length - cp) (by omega)
  have hmu : g.minimizeUnchecked cp = g.minimizeN (g.unchecked.length - cp) := rfl
  rw [hmu]
  generalize g.minimizeN (g.unchecked.length - cp) = g1 at m1 m2 m3
  intro b hb
  have ha : w[cp]? = some a := by
    have := congrArg (fun l => l[0]?) hal
    simpa using this
  rw [m3.keys, m3.root] at hb
  by_cases hn : g.unchecked.length - cp = 0
  · rw [m2, hn, List.drop_zero, hg.fresh] at hb
    simp at hb
  · -- the last popped edge bounds the labels
    have hlt : g.unchecked.length - cp - 1 < g.unchecked.length := by omega
    have hdrop : g.unchecked.drop (g.unchecked.length - cp - 1) =
        g.unchecked[g.unchecked.length - cp - 1] :: g.unchecked.drop (g.unchecked.length - cp) := by
      rw [List.drop_eq_getElem_cons hlt]
      congr 2
      omega
    generalize he : g.unchecked[g.unchecked.length - cp - 1] = e at hdrop
    obtain ⟨p, lt, c⟩ := e
    have hsuf : (p, lt, c) :: g.unchecked.drop (g.unchecked.length - cp) <:+ g.unchecked := by
      rw [← hdrop]; exact List.drop_suffix _ _
    have hp : p = topOf g.root (g.unchecked.drop (g.unchecked.length - cp)) :=
      (chain_suffix hsuf hg.core.chain).1
    have hmem : (p, lt, c) ∈ g.unchecked := hsuf.subset (by simp)
    rw [m2, ← hp] at hb
    have hb' := hg.core.label p lt c hmem b hb
    have hlt' : g.previousWord[cp]? = some lt := by
      have h1 : lettersOf (g.unchecked.drop (g.unchecked.length - cp - 1)) =
          g.previousWord.take (cp + 1) := by
        rw [letters_drop, hg.letters]; congr 1; omega
      rw [hdrop] at h1
      have h2 : lettersOf ((p, lt, c) :: g.unchecked.drop (g.unchecked.length - cp)) =
          g.previousWord.take cp ++ [lt] := by
        have : lettersOf (g.unchecked.drop (g.unchecked.length - cp)) = g.previousWord.take cp := by
          rw [letters_drop, hg.letters]; congr 1; omega
        rw [← this]; simp [lettersOf]
      rw [h2] at h1
      have hcpl : cp < g.previousWord.length := by omega
      rw [List.take_add_one, List.getElem?_eq_getElem hcpl] at h1
      have := List.append_cancel_left h1
      simp only [Option.toList_some, List.cons.injEq, and_true] at this
      rw [List.getElem?_eq_getElem hcpl, this]
    exact lt_of_le_of_lt hb' (l2 a lt ha hlt')

theorem Inv.insert {g : Graph α δ} {ps : List (List α × δ)} (hg : Inv g ps) {w : List α} (d : δ)
    (hw : g.previousWord < w) : ∃ g', g.insert w d = .ok g' ∧ Inv g' (ps ++ [(w, d)]) := by
  obtain ⟨c1, c2, c3, -⟩ := commonPrefix_spec w g.previousWord
  obtain ⟨l1, l2⟩ := lt_common hw
  have hlen : g.unchecked.length = g.previousWord.length := by
    rw [← hg.letters]; simp [lettersOf]
  generalize hcp : commonPrefix w g.previousWord = cp at c1 c2 c3 l1 l2
  obtain ⟨m1, m2, m3⟩ := hg.core.minimizeN hg.pathLive (g.unchecked.length - cp) (by omega)
  have hmu : g.minimizeUnchecked cp = g.minimizeN (g.unchecked.length - cp) := rfl
  unfold Graph.insert
  rw [if_pos hw]
  simp only [hcp]
  rw [hmu]
  generalize hg1 : g.minimizeN (g.unchecked.length - cp) = g1 at m1 m2 m3
  -- the graph with the new data
  have m1' : Core { g1 with data := g1.data ++ [d] } :=
    ⟨m1.allocPath, m1.allocMin, m1.chain, m1.link, m1.nodup, m1.minKey, m1.minEdge, m1.disj,
      m1.pathEdge, m1.label, m1.unique, m1.keysNodup, m1.live, m1.reach, m1.clean, m1.minNodup⟩
  have hletters : lettersOf g1.unchecked = w.take cp := by
    rw [m2, letters_drop, hg.letters, c3, show g.unchecked.length - (g.unchecked.length - cp) = cp by omega]
  have htoplt : ∀ a l, w.drop cp = a :: l →
      ∀ b ∈ Dict.keys (g1.heap (topOf g1.root g1.unchecked)).edges, b < a := by
    intro a l hal
    have := hg.top_labels hw (a := a) (l := l) (by rw [hcp]; exact hal)
    rwa [hcp, hmu, hg1] at this
  have hadd := Core.addLetters (w.drop cp) m1' htoplt
  have htop : ({ g1 with data := g1.data ++ [d] } : Graph α δ).top = topOf g1.root g1.unchecked := by
    unfold Graph.top topOf
    rfl
  rw [htop]
  change (let r := ({ g1 with data := g1.data ++ [d] } : Graph α δ).addLetters (topOf g1.root g1.unchecked) (w.drop cp)
    _) at hadd
  generalize ({ g1 with data := g1.data ++ [d] } : Graph α δ).addLetters (topOf g1.root g1.unchecked)
    (w.drop cp) = r at hadd
  obtain ⟨g2, x⟩ := r
  obtain ⟨a1, a2, a3, a4, a5, a6, a7, a8, a9⟩ := hadd
  simp only at a1 a2 a3 a4 a5 a6 a7 a8 a9
  have hne : w.drop cp ≠ [] := by
    intro h
    have := congrArg List.length h
    simp at this
    omega
  have hlw : lettersOf g2.unchecked = w := by
    rw [a4, hletters, List.take_append_drop]
  refine ⟨_, rfl, ?_⟩
  have hx : x = topOf g2.root g2.unchecked := by rw [a2, a5]
  have hxp : x ∈ pathNodes g2.root g2.unchecked := by rw [hx]; exact topOf_mem _ (List.suffix_refl _)
  have hmx : ∀ m, g2.Min m → m ≠ x := fun m hm e => a1.disj m hm (e ▸ hxp)
  have hedge : ∀ z c, (g2.heap.put x { g2.heap x with terminal := true }).edge z c = g2.heap.edge z c :=
    fun z c => edge_put_terminal _ _ _ z c
  have hrun : ∀ z u, (g2.heap.put x { g2.heap x with terminal := true }).run z u = g2.heap.run z u :=
    fun z u => run_congr hedge z u
  have hput : ∀ z, z ≠ x → (g2.heap.put x { g2.heap x with terminal := true }) z = g2.heap z := by
    intro z hz; simp [Heap.put, hz]
  have hkeys : ∀ z, ((g2.heap.put x { g2.heap x with terminal := true }) z).edges = (g2.heap z).edges := by
    intro z
    by_cases hz : z = x
    · subst hz; simp [Heap.put]
    · rw [hput z hz]
  have hterm : ∀ z, ((g2.heap.put x { g2.heap x with terminal := true }) z).terminal = true ↔
      z = x ∨ (g2.heap z).terminal = true := by
    intro z
    by_cases hz : z = x
    · subst hz; simp [Heap.put]
    · rw [hput z hz]; simp [hz]
  have hlang : ∀ u, (g2.heap.put x { g2.heap x with terminal := true }).acc g2.root u ↔
      u ∈ (ps ++ [(w, d)]).map Prod.fst := by
    intro u
    have hold : g2.heap.acc g2.root u ↔ u ∈ ps.map Prod.fst := by
      rw [a5, a3 u]
      rw [m3.acc, m3.root]
      exact hg.lang u
    rw [List.map_append, List.mem_append, ← hold]
    simp only [List.map_cons, List.map_nil, List.mem_singleton]
    unfold Heap.acc
    simp only [hrun, hterm]
    constructor
    · rintro ⟨y, hy, rfl | hy'⟩
      · right
        rw [hx] at hy
        rw [a1.unique g2.unchecked (List.suffix_refl _) u hy, hlw]
      · exact Or.inl ⟨y, hy, hy'⟩
    · rintro (⟨y, hy, hy'⟩ | rfl)
      · exact ⟨y, hy, Or.inr hy'⟩
      · refine ⟨x, ?_, Or.inl rfl⟩
        have := run_letters a1.chain a1.link
        rw [hlw, ← hx] at this
        exact this
  have hwne : w ≠ [] := by
    rintro rfl; simp at hw
  refine ⟨⟨a1.allocPath, a1.allocMin, a1.chain, ?_, a1.nodup, ?_, ?_, a1.disj, ?_, ?_, ?_, ?_, ?_, ?_, ?_,
    a1.minNodup⟩, ?_, hlw, ?_, hlang, ?_, ?_, ?_, ?_⟩
  · intro p l c h
    exact (hedge p l).trans (a1.link p l c h)
  · intro k m hk
    change ((g2.heap.put x { g2.heap x with terminal := true }) m).key = k
    rw [hput m (hmx m ⟨k, hk⟩)]
    exact a1.minKey k m hk
  · intro m c y hm he
    exact a1.minEdge m c y hm ((hedge m c).symm.trans he)
  · intro z c y hz he
    exact a1.pathEdge z c y hz ((hedge z c).symm.trans he)
  · intro p l c h b hb
    change b ∈ Dict.keys ((g2.heap.put x { g2.heap x with terminal := true }) p).edges at hb
    rw [hkeys] at hb
    exact a1.label p l c h b hb
  · intro t ht u hu
    exact a1.unique t ht u ((hrun _ _).symm.trans hu)
  · intro z
    change (Dict.keys ((g2.heap.put x { g2.heap x with terminal := true }) z).edges).Nodup
    rw [hkeys]; exact a1.keysNodup z
  · intro m hm
    obtain ⟨u, y, hy, hy'⟩ := a1.live m hm
    exact ⟨u, y, (hrun _ _).trans hy, (hterm y).mpr (Or.inr hy')⟩
  · intro m hm
    obtain ⟨u, hu⟩ := a1.reach m hm
    exact ⟨u, (hrun _ _).trans hu⟩
  · intro z
    change ((g2.heap.put x { g2.heap x with terminal := true }) z).leafCount = none ∧
      ((g2.heap.put x { g2.heap x with terminal := true }) z).finalEdges = none
    by_cases hz : z = x
    · subst hz; simpa [Heap.put] using a1.clean z
    · rw [hput z hz]; exact a1.clean z
  · intro e he
    obtain ⟨u, hu⟩ := run_to_top a1.chain a1.link e he
    exact ⟨u, x, (hrun _ _).trans (by rw [hu, hx]), (hterm x).mpr (Or.inl rfl)⟩
  · change Dict.keys ((g2.heap.put x { g2.heap x with terminal := true }) (topOf g2.root g2.unchecked)).edges = []
    rw [hkeys, ← hx]
    exact a9 hne
  · change g2.data = _
    rw [a7]
    rw [m3.data, hg.data]
    simp
  · rw [List.map_append, List.pairwise_append]
    refine ⟨hg.sorted, by simp, ?_⟩
    intro u hu v hv
    simp only [List.map_cons, List.map_nil, List.mem_singleton] at hv
    subst hv
    exact lt_of_le_of_lt (hg.last u hu) hw
  · intro u hu
    change u ≤ w
    rw [List.map_append, List.mem_append] at hu
    rcases hu with hu | hu
    · exact le_of_lt (lt_of_le_of_lt (hg.last u hu) hw)
    · simp only [List.map_cons, List.map_nil, List.mem_singleton] at hu
      exact le_of_eq hu
  · intro h
    have := (hlang []).mp h
    rw [List.map_append, List.mem_append] at this
    rcases this with h | h
    · exact hg.rootNot ((hg.lang []).mpr h)
    · simp only [List.map_cons, List.map_nil, List.mem_singleton] at h
      exact hwne h.symm

open DawgSpec

theorem build_inv (ps : List (List α × δ)) : Inv (Graph.build ps) (kept ps) ∧
    (Graph.build ps).previousWord = ((kept ps).getLast?.map Prod.fst).getD [] := by
  induction ps using List.reverseRecOn with
  | nil =>
    refine ⟨⟨new_core, ?_, rfl, rfl, ?_, rfl, by simp [kept], by simp [kept], ?_⟩, rfl⟩
    · intro e he; simp [Graph.build, Graph.new] at he
    · intro w
      constructor
      · rintro ⟨y, -, hy⟩; simp [Graph.build, Graph.new, Node.new] at hy
      · intro h; simp [kept] at h
    · rintro ⟨y, -, hy⟩; simp [Graph.build, Graph.new, Node.new] at hy
  | append_singleton ps p ih =>
    have h1 : Graph.build (ps ++ [p]) = (Graph.build ps).call p := by simp [Graph.build]
    have h2 : kept (ps ++ [p]) = if (((kept ps).getLast?.map Prod.fst).getD []) < p.1 then kept ps ++ [p]
      else kept ps := by
      unfold kept
      rw [List.foldl_append]
      rfl
    rw [h1, h2, ← ih.2]
    by_cases hlt : (Graph.build ps).previousWord < p.1
    · obtain ⟨g', hg', hinv⟩ := ih.1.insert p.2 hlt
      have hcall : (Graph.build ps).call p = g' := by simp [Graph.call, hg']
      rw [if_pos hlt, hcall]
      refine ⟨hinv, ?_⟩
      simp only [List.getLast?_append, List.getLast?_singleton]
      unfold Graph.insert at hg'
      rw [if_pos hlt] at hg'
      cases hg'
      rfl
    · have hcall : (Graph.build ps).call p = Graph.build ps := by
        simp [Graph.call, Graph.insert, hlt]
      rw [if_neg hlt, hcall]
      exact ⟨ih.1, ih.2⟩

end Dawg
end Verif
