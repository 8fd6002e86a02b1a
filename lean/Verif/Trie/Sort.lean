import Verif.Trie.State
import Verif.Py.Sort
import Mathlib.Data.List.Lex

/-!
# Model of `Trie.sort_keys` and of slices (find_replace_trie.py, lines 257–280, 294–305, 382–385)
-/

namespace Verif
namespace Trie

variable {κ τ ν S : Type}

/-- `sorted(node_copy.keys(), reverse=ascending, key=compare)` (line 278) applied to the items of a
node. -/
def sortKids [LinearOrder S] (key : τ → S) (ascending : Bool) (ks : List (τ × Node τ ν)) :
    List (τ × Node τ ν) :=
  if ascending then sortDesc (fun p => key p.1) ks
  else ks.insertionSort (fun a b => key a.1 ≤ key b.1)

/-- The loop of `sort_keys` (lines 273–280): every node is visited once and its children are
re-inserted in sorted order. The order in which the nodes are visited does not matter, so the
explicit stack is replaced by recursion. -/
def Node.sort [LinearOrder S] (key : τ → S) (ascending : Bool) : Node τ ν → Node τ ν
  | .mk v ks => .mk v (sortKids key ascending (ks.attach.map (fun p => (p.1.1, sort key ascending p.1.2))))
decreasing_by
  obtain ⟨⟨k, c⟩, h⟩ := p
  have h1 := List.sizeOf_lt_of_mem h
  have h2 : sizeOf (k, c) = 1 + sizeOf k + sizeOf c := rfl
  have h3 : sizeOf (Node.mk v ks) = 1 + sizeOf v + sizeOf ks := by simp
  simp only at *
  omega

/-- `trie.sort_keys(ascending, case_sensitive)` (lines 257–280). The parameter `key` is `compare`:
`(token.casefold(), token)` (line 268) or `token` (line 271). -/
def sortKeys [LinearOrder S] (key : τ → S) (ascending : Bool) (t : Trie τ ν) : Trie τ ν :=
  ⟨t.root.sort key ascending, t.length⟩

/-- `_item_slice(start, stop)` (lines 294–301) with `step=None`; comparing a key with a missing
bound is a `TypeError`. -/
def itemSlice [LinearOrder κ] (start stop : Option κ) : List (κ × ν) → Except PyErr (List (κ × ν))
  | [] => .ok []
  | (k, v) :: rest =>
    match stop with
    | none => .error .typeError
    | some e =>
      if e ≤ k then .ok []
      else
        match start with
        | none => .error .typeError
        | some s =>
          match itemSlice start stop rest with
          | .error x => .error x
          | .ok out => .ok (if s ≤ k then (k, v) :: out else out)

/-- `trie[start:stop]` (lines 304–305). -/
def getSlice [LinearOrder κ] (detok : List τ → κ) (t : Trie τ ν) (start stop : Option κ) :
    Except PyErr (List ν) :=
  match itemSlice start stop (items detok t) with
  | .error x => .error x
  | .ok l => .ok (l.map Prod.snd)

/-- The loop `for key, value in …: self.pop(key)` of line 384–385. -/
def popAll [DecidableEq τ] (tok : κ → List τ) (t : Trie τ ν) : List κ → Except PyErr (Trie τ ν)
  | [] => .ok t
  | k :: ks =>
    match pop tok t k with
    | .error x => .error x
    | .ok (t', _, _) => popAll tok t' ks

/-- `del trie[start:stop]` (lines 383–385). -/
def delSlice [LinearOrder κ] [DecidableEq τ] (tok : κ → List τ) (detok : List τ → κ) (t : Trie τ ν)
    (start stop : Option κ) : Except PyErr (Trie τ ν) :=
  match itemSlice start stop (items detok t) with
  | .error x => .error x
  | .ok l => popAll tok t (l.map Prod.fst)

/-! ### Lemmas -/

theorem Node.sort_kids [LinearOrder S] (key : τ → S) (asc : Bool) (n : Node τ ν) :
    (n.sort key asc).kids =
      sortKids key asc (n.kids.map (fun p => (p.1, p.2.sort key asc))) := by
  cases n with
  | mk v ks =>
    rw [Node.sort]
    simp only [Node.kids]
    congr 1
    rw [List.attach_map_val (f := fun p : τ × Node τ ν => (p.1, p.2.sort key asc))]

theorem Node.sort_val [LinearOrder S] (key : τ → S) (asc : Bool) (n : Node τ ν) :
    (n.sort key asc).val = n.val := by
  cases n with
  | mk v ks => rw [Node.sort]; rfl

theorem sortKids_perm [LinearOrder S] (key : τ → S) (asc : Bool) (ks : List (τ × Node τ ν)) :
    (sortKids key asc ks).Perm ks := by
  unfold sortKids
  split
  · exact sortDesc_perm _ _
  · exact List.perm_insertionSort _ _

theorem Node.mem_sort_kids [LinearOrder S] {key : τ → S} {asc : Bool} {n : Node τ ν} {k : τ}
    {c : Node τ ν} :
    (k, c) ∈ (n.sort key asc).kids ↔ ∃ c', (k, c') ∈ n.kids ∧ c = c'.sort key asc := by
  rw [Node.sort_kids, (sortKids_perm _ _ _).mem_iff, List.mem_map]
  constructor
  · rintro ⟨⟨k', c'⟩, hm, he⟩
    simp only [Prod.mk.injEq] at he
    exact ⟨c', he.1 ▸ hm, he.2.symm⟩
  · rintro ⟨c', hm, rfl⟩
    exact ⟨(k, c'), hm, rfl⟩

theorem Node.sort_kids_nodup [LinearOrder S] {key : τ → S} {asc : Bool} {n : Node τ ν}
    (h : (Dict.keys n.kids).Nodup) : (Dict.keys (n.sort key asc).kids).Nodup := by
  have hp : ((n.sort key asc).kids.map Prod.fst).Perm (n.kids.map Prod.fst) := by
    rw [Node.sort_kids]
    refine ((sortKids_perm _ _ _).map _).trans ?_
    rw [List.map_map]
    exact List.Perm.refl _
  exact hp.nodup_iff.mpr h

theorem Node.sort_wf [LinearOrder S] (key : τ → S) (asc : Bool) {n : Node τ ν} (h : n.WF) :
    (n.sort key asc).WF := by
  induction h with
  | @mk v ks h1 h2 h3 ih =>
    have hwf : (Node.mk v ks).WF := Node.WF.mk h1 h2 h3
    refine Node.WF.intro (Node.sort_kids_nodup hwf.nodup) ?_ ?_
    · intro k c hm
      obtain ⟨c', hm', rfl⟩ := Node.mem_sort_kids.mp hm
      exact ih k c' hm'
    · intro k c hm
      obtain ⟨c', hm', rfl⟩ := Node.mem_sort_kids.mp hm
      rcases h3 k c' hm' with h | h
      · left
        rw [Node.sort_kids]
        intro he
        have := (sortKids_perm key asc (c'.kids.map (fun p => (p.1, p.2.sort key asc)))).length_eq
        rw [he] at this
        simp at this
        exact h (List.length_eq_zero_iff.mp this.symm)
      · right
        rw [Node.sort_val]
        exact h

theorem Node.sort_get? [DecidableEq τ] [LinearOrder S] (key : τ → S) (asc : Bool) {n : Node τ ν}
    (h : n.WF) (t : τ) :
    Dict.get? (n.sort key asc).kids t = (Dict.get? n.kids t).map (Node.sort key asc) := by
  cases hg : Dict.get? n.kids t with
  | none =>
    rw [Option.map_none, Dict.get?_eq_none]
    intro hm
    obtain ⟨⟨k, c⟩, hm2, rfl⟩ := List.mem_map.mp hm
    obtain ⟨c', hm', -⟩ := Node.mem_sort_kids.mp hm2
    rw [Dict.get?_eq_none] at hg
    exact hg (Dict.mem_keys_of_mem hm')
  | some c =>
    rw [Option.map_some]
    exact Dict.get?_of_mem (Node.sort_kids_nodup h.nodup)
      (Node.mem_sort_kids.mpr ⟨c, Dict.mem_of_get? hg, rfl⟩)

theorem Node.sort_get [DecidableEq τ] [LinearOrder S] (key : τ → S) (asc : Bool) {n : Node τ ν}
    (h : n.WF) (p : List τ) : (n.sort key asc).get p = n.get p := by
  induction p generalizing n with
  | nil => simp [Node.sort_val]
  | cons t ts ih =>
    rw [Node.get_cons, Node.get_cons, Node.sort_get? key asc h]
    cases hg : Dict.get? n.kids t with
    | none => simp
    | some c => simpa using ih (h.child (Dict.mem_of_get? hg))

theorem inv_sortKeys [DecidableEq τ] [LinearOrder S] (key : τ → S) (asc : Bool) {t : Trie τ ν}
    (h : Inv t) : Inv (sortKeys key asc t) := by
  refine ⟨Node.sort_wf key asc h.wf, ?_⟩
  have hl : (sortKeys key asc t).root.items.length = t.root.items.length :=
    items_length_same h.wf (Node.sort_wf key asc h.wf) (fun q _ => by
      simp only [sortKeys]; rw [Node.sort_get _ _ h.wf])
  have hv : (sortKeys key asc t).root.val = t.root.val := Node.sort_val _ _ _
  rw [hl, hv]
  exact h.len

/-- The children of every node are sorted by `key`, in the order in which `items` takes them. -/
inductive Node.KeySorted [LinearOrder S] (key : τ → S) : Node τ ν → Prop where
  | mk {v : Option ν} {ks : List (τ × Node τ ν)} :
      ks.reverse.Pairwise (fun a b => key a.1 < key b.1) → (∀ k c, (k, c) ∈ ks → KeySorted key c) →
      KeySorted key (.mk v ks)

theorem Node.KeySorted.pairwise [LinearOrder S] {key : τ → S} {n : Node τ ν}
    (h : n.KeySorted key) : n.kids.reverse.Pairwise (fun a b => key a.1 < key b.1) := by
  cases h with
  | mk h _ => exact h

theorem Node.KeySorted.child [LinearOrder S] {key : τ → S} {n : Node τ ν}
    (h : n.KeySorted key) {k : τ} {c : Node τ ν} (hm : (k, c) ∈ n.kids) : c.KeySorted key := by
  cases h with
  | mk _ h => exact h k c hm

theorem Node.sort_keySorted [LinearOrder S] {key : τ → S} (hinj : Function.Injective key)
    {n : Node τ ν} (h : n.WF) : (n.sort key true).KeySorted key := by
  induction h with
  | @mk v ks h1 h2 h3 ih =>
    have hwf : (Node.mk v ks).WF := Node.WF.mk h1 h2 h3
    have hp : (((Node.mk v ks).sort key true).kids).reverse.Pairwise
        (fun a b => key a.1 < key b.1) := by
      have hnd := Node.sort_kids_nodup (key := key) (asc := true) hwf.nodup
      rw [List.pairwise_reverse]
      have hs : ((Node.mk v ks).sort key true).kids.Pairwise (fun a b => key b.1 ≤ key a.1) := by
        rw [Node.sort_kids]
        simp only [sortKids, ↓reduceIte]
        exact sortDesc_pairwise _ _
      have hd : ((Node.mk v ks).sort key true).kids.Pairwise (fun a b => a.1 ≠ b.1) := by
        rw [← List.pairwise_map (f := Prod.fst) (R := (· ≠ ·))]
        exact hnd
      refine (hs.and hd).imp ?_
      rintro a b ⟨hab, hne⟩
      exact lt_of_le_of_ne hab (fun h => hne (hinj h).symm)
    have hch : ∀ k c, (k, c) ∈ ((Node.mk v ks).sort key true).kids → c.KeySorted key := by
      intro k c hm
      obtain ⟨c', hm', rfl⟩ := Node.mem_sort_kids.mp hm
      exact ih k c' hm'
    cases hs : (Node.mk v ks).sort key true with
    | mk v' ks' =>
      rw [hs] at hp hch
      exact Node.KeySorted.mk hp hch

/-- In a sorted trie the items come in lexicographic order. -/
theorem frameItems_lex [DecidableEq τ] [LinearOrder S] {key : τ → S} (path : List τ)
    (f : List (τ × Node τ ν)) (hf : ∀ k c, (k, c) ∈ f → c.WF)
    (hk : ∀ k c, (k, c) ∈ f → c.KeySorted key) (hs : f.Pairwise (fun a b => key a.1 < key b.1)) :
    (frameItems path f).Pairwise (fun a b => List.Lex (fun x y => key x < key y) a.1 b.1) := by
  induction path, f using frameItems.induct with
  | case1 path => simp [frameItems]
  | case2 path k c rest ih1 ih2 =>
    have hc : Node.WF c := hf k c (by simp)
    have hck : c.KeySorted key := hk k c (by simp)
    have hr : ∀ k' c', (k', c') ∈ rest → Node.WF c' := fun k' c' hm => hf k' c' (by simp [hm])
    have hcr : ∀ k' c', (k', c') ∈ c.kids.reverse → Node.WF c' :=
      fun k' c' hm => hc.child (List.mem_reverse.mp hm)
    rw [List.pairwise_cons] at hs
    have i1 := ih1 hcr (fun k' c' hm => hck.child (List.mem_reverse.mp hm)) hck.pairwise
    have i2 := ih2 hr (fun k' c' hm => hk k' c' (by simp [hm])) hs.2
    have hd : ∀ a ∈ frameItems (path ++ [k]) c.kids.reverse, ∃ k' q, a.1 = path ++ k :: k' :: q := by
      rintro ⟨p, v⟩ hp
      obtain ⟨k', c', q, _, rfl, _⟩ := (mem_frameItems _ _ hcr _ _).mp hp
      exact ⟨k', q, by simp⟩
    have he : ∀ a ∈ frameItems path rest, ∃ k' q, key k < key k' ∧ a.1 = path ++ k' :: q := by
      rintro ⟨p, v⟩ hp
      obtain ⟨k', c', q, hm, rfl, _⟩ := (mem_frameItems _ _ hr _ _).mp hp
      exact ⟨k', q, hs.1 _ hm, rfl⟩
    rw [frameItems, List.pairwise_append, List.pairwise_append]
    refine ⟨by cases c.val <;> simp, ⟨i1, i2, ?_⟩, ?_⟩
    · intro a ha b hb
      obtain ⟨k', q, h1⟩ := hd a ha
      obtain ⟨k'', q', hlt, h2⟩ := he b hb
      rw [h1, h2]
      exact List.Lex.append_left (fun x y => key x < key y) (List.Lex.rel hlt) _
    · intro a ha b hb
      have h1 : a.1 = path ++ [k] := by
        cases hv : c.val with
        | none => simp [hv] at ha
        | some w => simp only [hv, List.mem_singleton] at ha; rw [ha]
      rcases List.mem_append.mp hb with hb | hb
      · obtain ⟨k', q, h2⟩ := hd b hb
        rw [h1, h2]
        exact List.Lex.append_left _ (List.Lex.cons List.Lex.nil) _
      · obtain ⟨k'', q', hlt, h2⟩ := he b hb
        rw [h1, h2]
        exact List.Lex.append_left (fun x y => key x < key y) (List.Lex.rel hlt) _

theorem Node.items_lex [DecidableEq τ] [LinearOrder S] {key : τ → S} {n : Node τ ν} (h : n.WF)
    (hk : n.KeySorted key) :
    n.items.Pairwise (fun a b => List.Lex (fun x y => key x < key y) a.1 b.1) := by
  rw [Node.items_eq]
  exact frameItems_lex _ _ (fun k c hm => h.child (List.mem_reverse.mp hm))
    (fun k c hm => hk.child (List.mem_reverse.mp hm)) hk.pairwise

/-- On a list sorted by key the early exit of `_item_slice` loses nothing. -/
theorem itemSlice_sorted [LinearOrder κ] (s e : κ) (l : List (κ × ν))
    (hl : l.Pairwise (fun a b => a.1 < b.1)) :
    itemSlice (some s) (some e) l = .ok (l.filter (fun p => s ≤ p.1 ∧ p.1 < e)) := by
  induction l with
  | nil => rfl
  | cons p l ih =>
    obtain ⟨k, v⟩ := p
    rw [List.pairwise_cons] at hl
    rw [itemSlice, ih hl.2]
    simp only
    by_cases hk : e ≤ k
    · rw [if_pos hk]
      congr 1
      symm
      rw [List.filter_eq_nil_iff]
      intro p hp
      rcases List.mem_cons.mp hp with rfl | hp
      · simp [hk]
      · have := lt_of_le_of_lt hk (hl.1 p hp)
        simp [le_of_lt this]
    · rw [if_neg hk]
      have hk' := not_le.mp hk
      rw [List.filter_cons]
      by_cases hs : s ≤ k <;> simp [hs, hk']

end Trie
end Verif
