import Verif.Trie.LevProps
import Verif.Trie.SortProps
import Verif.Dawg.Props
import Verif.Auto.Props
import Verif.Edit.Props

/-!
# Properties C218 and C219: structures that hold the same words agree

`Trie.levenshtein_lookup` with its default costs (experiments/find_replace_trie.py:607-690), a search
in a BK tree (experiments/automata.py:318-352) and `find_all_matches` with a Levenshtein automaton
(experiments/automata.py) find the same words, and these are the words whose `edit_distance` from the
query is at most the bound. A word graph (experiments/dawg.py) and a trie of the same words answer
alike.
-/

namespace Verif
namespace Trie

open EditSpec TrieSpec

variable {α : Type} [DecidableEq α]

omit [DecidableEq α] in
theorem edit_of_unit {u v : List α} {n : ℕ} (h : EditSpec.Edit unitCosts u v n) :
    EditSpec.Edit (⟨1, 1, 1, some 2⟩ : Costs ℚ) u v (n : ℚ) := by
  induction h with
  | nil => simpa using EditSpec.Edit.nil
  | keep a _ ih => exact .keep a ih
  | ins b _ ih => have := EditSpec.Edit.ins b ih; simpa [unitCosts] using this
  | del a _ ih => have := EditSpec.Edit.del a ih; simpa [unitCosts] using this
  | sub a b hab _ ih => have := EditSpec.Edit.sub a b hab ih; simpa [unitCosts] using this
  | swap a b h _ _ => cases h

theorem unit_of_edit {u v : List α} {x : ℚ}
    (h : EditSpec.Edit (⟨1, 1, 1, some 2⟩ : Costs ℚ) u v x) :
    ∃ n : ℕ, (n : ℚ) ≤ x ∧ EditSpec.Edit unitCosts u v n := by
  induction h with
  | nil => exact ⟨0, by simp, .nil⟩
  | keep a _ ih => obtain ⟨n, h1, h2⟩ := ih; exact ⟨n, h1, .keep a h2⟩
  | ins b _ ih =>
    obtain ⟨n, h1, h2⟩ := ih
    exact ⟨n + 1, by push_cast; linarith, .ins b h2⟩
  | del b _ ih =>
    obtain ⟨n, h1, h2⟩ := ih
    exact ⟨n + 1, by push_cast; linarith, .del b h2⟩
  | sub a b hab _ ih =>
    obtain ⟨n, h1, h2⟩ := ih
    exact ⟨n + 1, by push_cast; linarith, .sub a b hab h2⟩
  | @swap u v x t a b h _ ih =>
    obtain ⟨n, h1, h2⟩ := ih
    cases h
    by_cases hab : a = b
    · subst hab
      exact ⟨n, by linarith, .keep a (.keep a h2)⟩
    · exact ⟨n + 1 + 1, by push_cast; linarith, .sub a b hab (.sub b a (Ne.symm hab) h2)⟩

/-- With the default costs of `levenshtein_lookup`, a script of cost at most `k` exists exactly when
`k` insertions, deletions and substitutions suffice. -/
theorem default_costs {u v : List α} {k : ℕ} :
    (∃ x : ℚ, x ≤ k ∧ EditSpec.Edit ⟨1, 1, 1, some 2⟩ u v x) ↔ dist unitCosts u v ≤ k := by
  constructor
  · rintro ⟨x, hx, h⟩
    obtain ⟨n, h1, h2⟩ := unit_of_edit h
    have h3 : (n : ℚ) ≤ k := h1.trans hx
    exact (dist_le h2).trans (by exact_mod_cast h3)
  · intro h
    exact ⟨_, by exact_mod_cast h, edit_of_unit (edit_dist unitCosts u v)⟩

open Edit in
theorem steps_iff {u v : List α} {k : ℕ} :
    (∃ n : ℕ, (n : ℤ) ≤ k ∧ Steps OneEdit n u v) ↔ dist unitCosts u v ≤ k := by
  constructor
  · rintro ⟨n, hn, h⟩
    have := unit_le_steps h
    omega
  · intro h
    exact ⟨_, by exact_mod_cast h, (unit_isLeast u v).1⟩

/-- **C218.** A trie that holds the entries, a BK tree made of them and the search of the sorted
entries with an automaton find the same words (the empty word aside): those entries whose
`edit_distance` from the query is at most `k`. -/
theorem C218_searches_agree {ν : Type} {pick : Finset Auto.State → Auto.State} (hp : Auto.PickOk pick)
    {order : Finset Auto.Sym → List Auto.Sym} (ho : Auto.OrderOk order)
    (entries : List (List ℕ)) (hs : entries.Pairwise (· ≤ ·))
    (hch : ∀ u ∈ entries, ∀ c ∈ u, c < 0x10FFFF)
    (cs : List (Call (List ℕ) ν))
    (hcs : ∀ w, contains (fun w => w) (afterCalls (fun w => w) id (new : Trie ℕ ν) cs) w = true ↔
      w ∈ entries)
    (first : List ℕ) (words : List (List ℕ)) (hbk : ∀ w, w ∈ first :: words ↔ w ∈ entries)
    (query : List ℕ) (hq : query ≠ []) (k : ℕ) :
    ∃ (inTrie : List (List ℕ)) (tree : Edit.BK ℕ) (count : ℕ) (inTree found : List (List ℕ)),
      levenshteinLookup id true (afterCalls (fun w => w) id (new : Trie ℕ ν) cs) query k 1 1 1 2 =
        .ok inTrie ∧
      Edit.BK.build first words = .ok tree ∧
      Edit.BK.search tree query k = .ok (count, inTree) ∧
      (∃ N, ∀ fuel, N ≤ fuel →
        Auto.findAllMatches pick order fuel query k entries = some (.ok found)) ∧
      ∀ w, w ≠ [] → ((w ∈ inTrie ↔ w ∈ entries ∧ ∃ d, Edit.editDistance query w = .ok d ∧ d ≤ k) ∧
        (w ∈ inTree ↔ w ∈ inTrie) ∧ (w ∈ found ↔ w ∈ inTrie)) := by
  obtain ⟨lt, hlt, -, -, ht⟩ := C63_levenshtein_lookup_exact cs query hq (k : ℚ) 1 1 1 2
    (by positivity) (by norm_num) (by norm_num) (by norm_num) (by norm_num)
  obtain ⟨tree, c, lb, hb1, hb2, hb⟩ := Edit.C69_bk_search_exact first words query (k : ℤ)
  obtain ⟨la, hla, -, ha⟩ := Auto.C79_find_all_matches hp ho query (k : ℤ) entries hs hch
  refine ⟨lt, tree, c, lb, la, hlt, hb1, hb2, hla, fun w hw => ?_⟩
  have h1 : w ∈ lt ↔ w ∈ entries ∧ dist unitCosts query w ≤ k := by
    rw [ht, ← hcs, contains_eq, default_costs]
    simp only [hw, ne_eq, not_false_eq_true, true_and, Option.isSome_iff_ne_none]
  have h2 : w ∈ lb ↔ w ∈ entries ∧ dist unitCosts query w ≤ k := by
    rw [hb, ← List.mem_cons, hbk, steps_iff, Edit.unit_symm]
  have h3 : w ∈ la ↔ w ∈ entries ∧ dist unitCosts query w ≤ k := by
    rw [ha, steps_iff]
    simp only [hw, ne_eq, not_false_eq_true, true_and]
  refine ⟨h1.trans (and_congr_right fun _ => ?_), h2.trans h1.symm, h3.trans h1.symm⟩
  rw [Edit.editDistance_ok]
  constructor
  · intro h; exact ⟨_, rfl, h⟩
  · rintro ⟨d, hd, h⟩
    injection hd with hd
    subst hd
    exact h

theorem get_foldl_upd {ν : Type} (ps : List (List α × ν)) (hnd : (ps.map Prod.fst).Nodup)
    (m : List α → Option ν) (w : List α) :
    ps.foldl (fun m x => upd m x.1 (some x.2)) m w =
      match ps.find? (fun x => x.1 = w) with
      | some x => some x.2
      | none => m w := by
  induction ps generalizing m with
  | nil => rfl
  | cons p ps ih =>
    rw [List.map_cons, List.nodup_cons] at hnd
    rw [List.foldl_cons, ih hnd.2, List.find?_cons]
    by_cases h : p.1 = w
    · subst h
      have : ps.find? (fun x => x.1 = p.1) = none := by
        rw [List.find?_eq_none]
        intro x hx hp
        exact hnd.1 (List.mem_map.2 ⟨x, hx, by simpa using hp⟩)
      simp [this, upd]
    · simp only [h, decide_false]
      cases ps.find? (fun x => x.1 = w) with
      | none => simp [upd, Ne.symm h]
      | some x => rfl

theorem get_stored {ν : Type} {ps : List (List α × ν)} (hnd : (ps.map Prod.fst).Nodup)
    (w : List α) (v : ν) :
    (afterCalls (fun w => w) id (new : Trie α ν) [.update ps]).root.get w = some v ↔
      (w, v) ∈ ps := by
  have h0 : (afterCalls (fun w => w) id (new : Trie α ν) [.update ps]).root.get =
      ps.foldl (fun m x => upd m x.1 (some x.2)) (new : Trie α ν).root.get :=
    get_update (fun w => w) ps new
  have hn : (new : Trie α ν).root.get w = none := Node.get_empty w
  rw [h0, get_foldl_upd ps hnd, hn]
  constructor
  · intro h
    cases hf : ps.find? (fun x => x.1 = w) with
    | none => rw [hf] at h; cases h
    | some x =>
      rw [hf] at h
      injection h with h
      have h1 := List.mem_of_find?_eq_some hf
      have h2 : x.1 = w := by simpa using List.find?_some hf
      subst h h2
      exact h1
  · intro h
    cases hf : ps.find? (fun x => x.1 = w) with
    | none =>
      rw [List.find?_eq_none] at hf
      exact absurd (hf _ h) (by simp)
    | some x =>
      have h1 := List.mem_of_find?_eq_some hf
      have h2 : x.1 = w := by simpa using List.find?_some hf
      have := List.inj_on_of_nodup_map hnd h1 h h2
      subst this
      rfl

theorem contains_stored {ν : Type} {ps : List (List α × ν)} (hnd : (ps.map Prod.fst).Nodup)
    (w : List α) :
    contains (fun w => w) (afterCalls (fun w => w) id (new : Trie α ν) [.update ps]) w = true ↔
      w ∈ ps.map Prod.fst := by
  rw [contains_eq, Option.isSome_iff_exists, List.mem_map]
  simp only [get_stored hnd]
  exact ⟨fun ⟨v, h⟩ => ⟨_, h, rfl⟩, fun ⟨⟨u, v⟩, h, e⟩ => ⟨v, by cases e; exact h⟩⟩

/-- Three entries; the query is one edit from two of them. -/
example {pick : Finset Auto.State → Auto.State} (hp : Auto.PickOk pick)
    {order : Finset Auto.Sym → List Auto.Sym} (ho : Auto.OrderOk order) :
    ∃ (inTrie : List (List ℕ)) (tree : Edit.BK ℕ) (count : ℕ) (inTree found : List (List ℕ)),
      levenshteinLookup id true (afterCalls (fun w => w) id (new : Trie ℕ String)
        [.update [([98], "b"), ([97, 98, 99], "abc"), ([98, 99, 100], "bcd")]]) [97, 98] 1 1 1 1 2 =
        .ok inTrie ∧
      Edit.BK.build [98, 99, 100] [[97, 98, 99], [98]] = .ok tree ∧
      Edit.BK.search tree [97, 98] 1 = .ok (count, inTree) ∧
      (∃ N, ∀ fuel, N ≤ fuel → Auto.findAllMatches pick order fuel [97, 98] 1
        [[97, 98, 99], [98], [98, 99, 100]] = some (.ok found)) ∧
      [98] ∈ inTrie ∧ [98] ∈ inTree ∧ [98] ∈ found ∧ [97, 98, 99] ∈ found ∧
      [98, 99, 100] ∉ inTrie ∧ [98, 99, 100] ∉ inTree ∧ [98, 99, 100] ∉ found := by
  obtain ⟨a, t, c, b, f, h1, h2, h3, h4, h⟩ := C218_searches_agree hp ho
    [[97, 98, 99], [98], [98, 99, 100]] (by decide) (by decide)
    ([.update [([98], "b"), ([97, 98, 99], "abc"), ([98, 99, 100], "bcd")]] : List (Call (List ℕ) String))
    (fun w => by
      rw [contains_stored (by decide)]
      simp only [List.map_cons, List.map_nil, List.mem_cons, List.not_mem_nil]
      tauto)
    [98, 99, 100] [[97, 98, 99], [98]] (fun w => by simp only [List.mem_cons, List.not_mem_nil]; tauto)
    [97, 98] (by simp) 1
  refine ⟨a, t, c, b, f, h1, h2, h3, h4, ?_⟩
  obtain ⟨p1, q1, r1⟩ := h [98] (by simp)
  obtain ⟨p2, q2, r2⟩ := h [97, 98, 99] (by simp)
  obtain ⟨p3, q3, r3⟩ := h [98, 99, 100] (by simp)
  have e1 : [98] ∈ a := p1.2 ⟨by simp, 1, by decide +kernel, le_rfl⟩
  have e2 : [97, 98, 99] ∈ a := p2.2 ⟨by simp, 1, by decide +kernel, le_rfl⟩
  have e3 : [98, 99, 100] ∉ a := by
    rw [p3]
    rintro ⟨-, d, hd, hle⟩
    have : Edit.editDistance [97, 98] [98, 99, 100] = .ok 3 := by decide +kernel
    rw [this] at hd
    injection hd with hd
    omega
  exact ⟨e1, q1.2 e1, r1.2 e1, r2.2 e2, e3, fun h => e3 (q3.1 h), fun h => e3 (r3.1 h)⟩

/-- **C219.** Of strictly increasing non-empty words with data, the word graph and the trie hold the
same: the same words are `in` them, lookups give the same data, the sorted trie lists the items as
the graph does, and the index of a word in the graph is its place among the keys of the sorted
trie. -/
theorem C219_dawg_and_trie {β δ : Type} [LinearOrder β] (ps : List (List β × δ))
    (hs : (ps.map Prod.fst).Pairwise (· < ·)) (hne : ∀ p ∈ ps, p.1 ≠ []) (limit : ℕ)
    (h0 : 0 < limit) (hlim : ∀ p ∈ ps, p.1.length < limit) :
    ∃ g, (Dawg.Graph.build ps).finalize limit = .ok g ∧
      (∀ w, g.contains w =
        .ok (contains (fun w => w) (afterCalls (fun w => w) id (new : Trie β δ) [.update ps]) w)) ∧
      (∀ w, g.lookup w =
        .ok (getD (fun w => w) (afterCalls (fun w => w) id (new : Trie β δ) [.update ps]) w)) ∧
      g.items limit = .ok (items id (sortKeys id true
        (afterCalls (fun w => w) id (new : Trie β δ) [.update ps]))) ∧
      (∀ (w : List β) (i : ℕ), g.index w = .ok (i : ℤ) ↔
        ((items id (sortKeys id true
          (afterCalls (fun w => w) id (new : Trie β δ) [.update ps]))).map Prod.fst)[i]? = some w) := by
  have hk := Dawg.C80_increasing_all_kept ps hs hne
  have hnd : (ps.map Prod.fst).Nodup := hs.imp (fun h => ne_of_lt h)
  obtain ⟨-, -, g, hg, -, hitems, -⟩ := Dawg.C80_keys_items ps limit h0 (by rw [hk]; exact hlim)
  obtain ⟨g', hg', hin, hout, -⟩ := Dawg.C81_index_lookup ps limit h0 (by rw [hk]; exact hlim)
  rw [hg] at hg'
  cases hg'
  rw [hk] at hin hout hitems
  have hsorted : items id (sortKeys id true
      (afterCalls (fun w => w) id (new : Trie β δ) [.update ps])) = ps := by
    obtain ⟨l, hl, hm, hp⟩ := C57_sort_keys_sorted (fun w : List β => w) id (id : β → β)
      Function.injective_id ([.update ps] : List (Call (List β) δ))
    rw [hl]
    have e : l.map (fun x => (id x.1, x.2)) = l := by simp
    rw [e]
    have hp' : l.Pairwise (fun a b => a.1 < b.1) := hp
    have hs' : ps.Pairwise (fun a b => a.1 < b.1) := List.pairwise_map.1 hs
    refine List.Perm.eq_of_pairwise (le := fun a b => a.1 < b.1)
      (fun a b _ _ h1 h2 => absurd h1 (lt_asymm h2)) hp' hs' ?_
    rw [List.perm_ext_iff_of_nodup (hp'.imp (fun h e => by rw [e] at h; exact lt_irrefl _ h))
      (hs'.imp (fun h e => by rw [e] at h; exact lt_irrefl _ h))]
    rintro ⟨w, v⟩
    rw [hm, get_stored hnd]
    exact ⟨fun h => h.2, fun h => ⟨hne _ h, h⟩⟩
  refine ⟨g, hg, ?_, ?_, by rw [hitems, hsorted], ?_⟩
  · intro w
    by_cases hw : w ∈ ps.map Prod.fst
    · rw [(contains_stored hnd w).2 hw]
      obtain ⟨p, hp, rfl⟩ := List.mem_map.1 hw
      obtain ⟨i, hi⟩ := List.getElem?_of_mem hp
      exact (hin i p hi).2.2.1
    · rw [(hout w hw).2.2]
      congr 1
      by_contra h
      exact hw ((contains_stored hnd w).1 (by simpa using Ne.symm h))
  · intro w
    rw [getD_eq]
    by_cases hw : w ∈ ps.map Prod.fst
    · obtain ⟨p, hp, rfl⟩ := List.mem_map.1 hw
      obtain ⟨i, hi⟩ := List.getElem?_of_mem hp
      rw [(hin i p hi).2.1, (get_stored hnd p.1 p.2).2 hp]
    · rw [(hout w hw).2.1]
      congr 1
      cases hgw : (afterCalls (fun w => w) id (new : Trie β δ) [.update ps]).root.get w with
      | none => rfl
      | some v => exact absurd (List.mem_map.2 ⟨_, (get_stored hnd w v).1 hgw, rfl⟩) hw
  · intro w i
    rw [hsorted, List.getElem?_map]
    constructor
    · intro h
      by_cases hw : w ∈ ps.map Prod.fst
      · obtain ⟨p, hp, rfl⟩ := List.mem_map.1 hw
        obtain ⟨j, hj⟩ := List.getElem?_of_mem hp
        rw [(hin j p hj).1] at h
        injection h with h
        have : j = i := by exact_mod_cast h
        subst this
        rw [hj]
        rfl
      · rw [(hout w hw).1] at h
        injection h with h
        omega
    · intro h
      cases hp : ps[i]? with
      | none => rw [hp] at h; cases h
      | some p =>
        rw [hp] at h
        injection h with h
        subst h
        exact (hin i p hp).1

example : ∃ g, (Dawg.Graph.build [([1], "a"), ([1, 2], "b"), ([2], "c")]).finalize 5 = .ok g ∧
    g.lookup [1, 2] = .ok (some "b") ∧ g.index [2] = .ok 2 := by
  obtain ⟨g, h1, -, h2, -, h4⟩ := C219_dawg_and_trie [([1], "a"), ([1, 2], "b"), ([2], "c")]
    (by decide) (by decide) 5 (by decide) (by decide)
  refine ⟨g, h1, ?_, (h4 [2] 2).2 ?_⟩
  · rw [h2, getD_eq, (get_stored (by decide) [1, 2] "b").2 (by decide)]
  · simp [afterCalls, step, setItem, update, items, Node.items, itemsLoop, Node.put,
      Node.val, Node.kids, new, Node.empty, Dict.set, Dict.get?, sortKeys, Node.sort, sortKids, sortDesc,
      List.insertionSort, List.orderedInsert]

end Trie
end Verif
