import Verif.Index.Grams

/-!
# Invariant of the word list state
-/

namespace Verif

open GramSpec

/-- Entry that word `w` (with index `i`) contributes to the positions of n-gram `g`. -/
def posEntry (ns : List ℤ) (g : List Char) (w : List Char) (i : ℕ) : Option (ℕ × List ℚ) :=
  if (g.length : ℤ) ∈ ns ∧ g ∈ getNGrams w g.length then
    some (i, Dict.locs (locatedOf (getNGrams w g.length)) g)
  else none

/-- All position entries of n-gram `g`. -/
def posEntries (ns : List ℤ) (ws : List (List Char)) (g : List Char) : List (ℕ × List ℚ) :=
  ws.zipIdx.filterMap (fun p => posEntry ns g p.1 p.2)

theorem posEntries_append (ns : List ℤ) (ws : List (List Char)) (w : List Char) (g : List Char) :
    posEntries ns (ws ++ [w]) g = posEntries ns ws g ++ (posEntry ns g w ws.length).toList := by
  unfold posEntries
  rw [List.zipIdx_append, List.filterMap_append]
  congr 1
  simp only [List.zipIdx_cons, List.zipIdx_nil, List.filterMap_cons, List.filterMap_nil, zero_add]
  cases posEntry ns g w ws.length <;> rfl

/-- The invariant relating the attributes to the list of stored words. The order in which a dictionary was
filled and the order inside a posting list are left open (threads may interleave there). -/
structure WLInv (cf : List Char → List Char) (st : WL) : Prop where
  nodupN : st.nList.Nodup
  posN : ∀ n ∈ st.nList, 0 < n
  nodupW : st.wordList.Nodup
  indices : st.wordIndices.Perm st.wordList.zipIdx
  lens : st.wordLens = st.wordList.map List.length
  nums : st.wordNumGrams = st.wordList.map (fun w => st.nList.map (numGrams w.length))
  filt : ∀ g i, i ∈ (Dict.get? st.ngramFilter g).getD [] ↔
    st.filterN ≠ 0 ∧ ∃ w, st.wordList[i]? = some w ∧ g ∈ getNGrams w st.filterN
  counts : ∀ g, ((Dict.get? st.ngramCounts g).getD []).Perm
    ((posEntries st.nList st.wordList g).map (fun p => (p.1, p.2.length)))
  positions : ∀ g, ((Dict.get? st.ngramPositions g).getD []).Perm
    (posEntries st.nList st.wordList g)
  words : ∀ w ∈ st.wordList, Clean w ∧ w ≠ [] ∧ st.fold cf w = w

theorem keys_zipIdx (ws : List (List Char)) : Dict.keys ws.zipIdx = ws := by
  simp [Dict.keys]

theorem WLInv.keys {cf : List Char → List Char} {st : WL} (hi : WLInv cf st) :
    (Dict.keys st.wordIndices).Perm st.wordList := by
  have := hi.indices.map Prod.fst
  rw [show st.wordList.zipIdx.map Prod.fst = st.wordList from keys_zipIdx _] at this
  exact this

theorem getD_appendTo {κ ν : Type} [DecidableEq κ] (d : Dict κ (List ν)) (k : κ) (v : ν) (k' : κ) :
    (Dict.get? (Dict.appendTo d k v) k').getD [] =
      (Dict.get? d k').getD [] ++ (if k = k' then [v] else []) := by
  rw [Dict.appendTo, Dict.get?_set]
  by_cases h : k = k'
  · subst h; simp
  · simp [h]

theorem getD_foldl_appendTo {α κ ν : Type} [DecidableEq κ] (l : List α) (f : α → κ) (v : α → ν)
    (d : Dict κ (List ν)) (k : κ) :
    (Dict.get? (l.foldl (fun d a => Dict.appendTo d (f a) (v a)) d) k).getD [] =
      (Dict.get? d k).getD [] ++ (l.filter (fun a => f a = k)).map v := by
  induction l generalizing d with
  | nil => simp
  | cons a l ih =>
    rw [List.foldl_cons, ih, getD_appendTo, List.filter_cons]
    by_cases h : f a = k <;> simp [h]

/-- The items stored for word `w`: for every `n`, every n-gram with its positions. -/
def gramItems (ns : List ℤ) (w : List Char) : List (List Char × List ℚ) :=
  ns.flatMap (fun n => Dict.group (locatedOf (getNGrams w n)))

theorem addGrams_eq (st : WL) (w : List Char) (idx : ℕ) :
    st.addGrams w idx = (gramItems st.nList w).foldl (WL.addItem idx) st := by
  unfold WL.addGrams gramItems
  rw [List.foldl_flatMap]
  simp only [addLocations_eq]

theorem foldl_addItem (idx : ℕ) (items : List (List Char × List ℚ)) (st : WL) :
    items.foldl (WL.addItem idx) st =
      { st with
        ngramCounts := items.foldl (fun d it => Dict.appendTo d it.1 (idx, it.2.length)) st.ngramCounts
        ngramPositions := items.foldl (fun d it => Dict.appendTo d it.1 (idx, it.2)) st.ngramPositions } := by
  induction items generalizing st with
  | nil => rfl
  | cons it items ih => rw [List.foldl_cons, ih]; rfl

theorem filter_group (gs : List (List Char)) (g : List Char) :
    (Dict.group (locatedOf gs)).filter (fun it => it.1 = g) =
      if g ∈ gs then [(g, Dict.locs (locatedOf gs) g)] else [] := by
  have hn := Dict.nodup_keys_group (locatedOf gs)
  rw [Dict.group_eq_map, List.filter_map]
  have e : (fun it : List Char × List ℚ => decide (it.1 = g)) ∘
      (fun k => (k, Dict.locs (locatedOf gs) k)) = fun k => decide (k = g) := rfl
  rw [e]
  by_cases h : g ∈ gs
  · rw [if_pos h, List.filter_eq, List.count_eq_one_of_mem hn ((keys_group_eq gs g).2 h)]
    rfl
  · rw [if_neg h, List.filter_eq, List.count_eq_zero_of_not_mem]
    · rfl
    · rw [keys_group_eq]; exact h

theorem filter_gramItems {ns : List ℤ} (hn : ns.Nodup) (hp : ∀ n ∈ ns, 0 < n) (w g : List Char) :
    (gramItems ns w).filter (fun it => it.1 = g) =
      if (g.length : ℤ) ∈ ns ∧ g ∈ getNGrams w g.length then
        [(g, Dict.locs (locatedOf (getNGrams w g.length)) g)] else [] := by
  unfold gramItems
  induction ns with
  | nil => simp
  | cons n ns ih =>
    rw [List.nodup_cons] at hn
    rw [List.flatMap_cons, List.filter_append, ih hn.2 (fun m hm => hp m (by simp [hm])),
      filter_group]
    by_cases h : (g.length : ℤ) = n
    · subst h
      simp [hn.1]
    · have h1 : g ∉ getNGrams w n := fun hg => h (getNGrams_length (hp n (by simp)) hg)
      simp [h, h1]

theorem getD_addToSet_mem {κ : Type} [DecidableEq κ] (d : Dict κ (List ℕ)) (k : κ) (i : ℕ)
    (k' : κ) (j : ℕ) :
    j ∈ (Dict.get? (addToSet d k i) k').getD [] ↔
      j ∈ (Dict.get? d k').getD [] ∨ (k = k' ∧ j = i) := by
  unfold addToSet
  rw [Dict.get?_set]
  by_cases h : k = k'
  · subst h
    simp only [if_true, Option.getD_some, true_and]
    split
    · rename_i hm
      constructor
      · exact Or.inl
      · rintro (hj | rfl) <;> assumption
    · simp
  · simp [h]

theorem foldl_addToSet_mem {κ : Type} [DecidableEq κ] (l : List κ) (d : Dict κ (List ℕ)) (i : ℕ)
    (k' : κ) (j : ℕ) :
    j ∈ (Dict.get? (l.foldl (fun d k => addToSet d k i) d) k').getD [] ↔
      j ∈ (Dict.get? d k').getD [] ∨ (k' ∈ l ∧ j = i) := by
  induction l generalizing d with
  | nil => simp
  | cons a l ih =>
    rw [List.foldl_cons, ih, getD_addToSet_mem]
    constructor
    · rintro ((h | ⟨rfl, h⟩) | ⟨h1, h2⟩)
      · exact Or.inl h
      · exact Or.inr ⟨by simp, h⟩
      · exact Or.inr ⟨by simp [h1], h2⟩
    · rintro (h | ⟨h1, h2⟩)
      · exact Or.inl (Or.inl h)
      · rcases List.mem_cons.1 h1 with rfl | h1
        · exact Or.inl (Or.inr ⟨rfl, h2⟩)
        · exact Or.inr ⟨h1, h2⟩

/-- Properties of the constructor. -/
theorem mkNList_ok {n : NArg} {l : List ℤ} (h : mkNList n = .ok l) :
    l.Nodup ∧ (∀ n ∈ l, 0 < n) ∧ l.Pairwise (· ≤ ·) := by
  cases n with
  | int n =>
    simp only [mkNList] at h
    split at h
    · injection h with h; subst h; simpa
    · cases h
  | iter ns =>
    simp only [mkNList] at h
    split at h
    · rename_i hp
      injection h with h; subst h
      refine ⟨?_, ?_, List.pairwise_insertionSort _ _⟩
      · exact ((List.perm_insertionSort _ _).nodup_iff).2 (List.nodup_dedup ns)
      · intro n hn
        simpa using List.all_eq_true.1 hp n hn
    · cases h
  | other => cases h

theorem WLInv.new {cf : List Char → List Char} {n : NArg} {cs : Bool} {fn : ℤ} {st : WL}
    (h : WL.new n cs fn = .ok st) : WLInv cf st := by
  unfold WL.new at h
  cases hm : mkNList n with
  | error e => rw [hm] at h; cases h
  | ok l =>
    rw [hm] at h
    injection h with h
    subst h
    obtain ⟨h1, h2, _⟩ := mkNList_ok hm
    exact ⟨h1, h2, by simp, .refl _, rfl, rfl, by simp, by simp [posEntries], by simp [posEntries],
      by simp⟩

/-- The state reached by a successful insertion of a new word. -/
def WL.inserted (st : WL) (w : List Char) : WL :=
  (({ st with
      wordIndices := st.wordIndices ++ [(w, st.wordList.length)]
      wordList := st.wordList ++ [w]
      wordLens := st.wordLens ++ [w.length]
      wordNumGrams := st.wordNumGrams ++ [st.nList.map (numGrams w.length)] } : WL).addFilter w
    st.wordList.length).addGrams w st.wordList.length

theorem set_eq_append {κ ν : Type} [DecidableEq κ] {d : Dict κ ν} {k : κ} (h : k ∉ Dict.keys d)
    (v : ν) : Dict.set d k v = d ++ [(k, v)] := by
  induction d with
  | nil => rfl
  | cons p d ih =>
    obtain ⟨k', v'⟩ := p
    simp only [Dict.keys_cons, List.mem_cons, not_or] at h
    simp only [Dict.set, if_neg (Ne.symm h.1), ih h.2, List.cons_append]

theorem fold_fold {cf : List Char → List Char} (hcf : ∀ w, cf (cf w) = cf w) (st : WL)
    (w : List Char) : st.fold cf (st.fold cf w) = st.fold cf w := by
  unfold WL.fold; split <;> simp [hcf]

theorem resolve_new {cf : List Char → List Char} {st : WL} (hi : WLInv cf st) {w : List Char}
    (hw : w ≠ []) (hf : st.fold cf w = w) (hn : w ∉ st.wordList) :
    st.resolve cf w = (({ st with
      wordIndices := st.wordIndices ++ [(w, st.wordList.length)]
      wordList := st.wordList ++ [w]
      wordLens := st.wordLens ++ [w.length]
      wordNumGrams := st.wordNumGrams ++ [st.nList.map (numGrams w.length)] } : WL),
      .ok st.wordList.length) := by
  have hk : w ∉ Dict.keys st.wordIndices := by rw [hi.keys.mem_iff]; exact hn
  unfold WL.resolve
  rw [if_neg (by simpa using hw)]
  simp only [hf]
  rw [Dict.get?_eq_none.2 hk]
  simp only [set_eq_append hk]
  rw [if_pos]
  refine ⟨by simp [hi.indices.length_eq], by simp, by simp, ?_⟩
  rw [hi.lens]; simp

theorem nList_inserted (st : WL) (w : List Char) : (st.inserted w).nList = st.nList := by
  simp only [WL.inserted, addGrams_eq, foldl_addItem]
  unfold WL.addFilter; split <;> rfl

theorem wordList_inserted (st : WL) (w : List Char) :
    (st.inserted w).wordList = st.wordList ++ [w] := by
  simp only [WL.inserted, addGrams_eq, foldl_addItem]
  unfold WL.addFilter; split <;> rfl

theorem inserted_eq (st : WL) (w : List Char) :
    st.inserted w =
      { st with
        wordIndices := st.wordIndices ++ [(w, st.wordList.length)]
        wordList := st.wordList ++ [w]
        wordLens := st.wordLens ++ [w.length]
        wordNumGrams := st.wordNumGrams ++ [st.nList.map (numGrams w.length)]
        ngramFilter := if st.filterN ≠ 0 then ((getNGrams w st.filterN).dedup).foldl
          (fun d g => addToSet d g st.wordList.length) st.ngramFilter else st.ngramFilter
        ngramCounts := (gramItems st.nList w).foldl
          (fun d it => Dict.appendTo d it.1 (st.wordList.length, it.2.length)) st.ngramCounts
        ngramPositions := (gramItems st.nList w).foldl
          (fun d it => Dict.appendTo d it.1 (st.wordList.length, it.2)) st.ngramPositions } := by
  simp only [WL.inserted, addGrams_eq, foldl_addItem]
  unfold WL.addFilter
  by_cases h : st.filterN ≠ 0
  · simp only [if_pos h]
  · simp only [if_neg h]

theorem WLInv.inserted {cf : List Char → List Char} {st : WL} (hi : WLInv cf st) {w : List Char}
    (hc : Clean w) (hw : w ≠ []) (hf : st.fold cf w = w) (hn : w ∉ st.wordList) :
    WLInv cf (st.inserted w) := by
  rw [inserted_eq]
  refine ⟨hi.nodupN, hi.posN, ?_, ?_, ?_, ?_, ?_, ?_, ?_, ?_⟩
  · simp only
    rw [List.nodup_append]
    refine ⟨hi.nodupW, by simp, ?_⟩
    intro a ha b hb
    rw [List.mem_singleton] at hb
    rintro rfl
    exact hn (hb ▸ ha)
  · simp only [List.zipIdx_append, Nat.zero_add, List.zipIdx_cons, List.zipIdx_nil]
    exact hi.indices.append_right _
  · simp [hi.lens]
  · simp [hi.nums]
  · intro g i
    simp only
    have hlast : ∀ v, (st.wordList ++ [w])[i]? = some v ↔
        st.wordList[i]? = some v ∨ (i = st.wordList.length ∧ v = w) := by
      intro v
      rcases Nat.lt_trichotomy i st.wordList.length with h | h | h
      · rw [List.getElem?_append_left h]
        constructor
        · exact Or.inl
        · rintro (h' | ⟨h', _⟩)
          · exact h'
          · omega
      · subst h
        simp [eq_comm]
      · rw [List.getElem?_eq_none (by simp; omega), List.getElem?_eq_none (by omega)]
        simp; omega
    by_cases h : st.filterN ≠ 0
    · rw [if_pos h, foldl_addToSet_mem, hi.filt, List.mem_dedup]
      constructor
      · rintro (⟨_, v, hv, hg⟩ | ⟨hg, rfl⟩)
        · exact ⟨h, v, (hlast v).2 (Or.inl hv), hg⟩
        · exact ⟨h, w, (hlast w).2 (Or.inr ⟨rfl, rfl⟩), hg⟩
      · rintro ⟨_, v, hv, hg⟩
        rcases (hlast v).1 hv with hv | ⟨rfl, rfl⟩
        · exact Or.inl ⟨h, v, hv, hg⟩
        · exact Or.inr ⟨hg, rfl⟩
    · rw [if_neg h, hi.filt]
      constructor
      · rintro ⟨h', _⟩; exact absurd h' h
      · rintro ⟨h', _⟩; exact absurd h' h
  · intro g
    simp only
    rw [getD_foldl_appendTo, filter_gramItems hi.nodupN hi.posN, posEntries_append]
    refine ((hi.counts g).append_right _).trans (.of_eq ?_)
    unfold posEntry
    split <;> simp
  · intro g
    simp only
    rw [getD_foldl_appendTo, filter_gramItems hi.nodupN hi.posN, posEntries_append]
    refine ((hi.positions g).append_right _).trans (.of_eq ?_)
    unfold posEntry
    split <;> simp
  · intro v hv
    simp only [List.mem_append, List.mem_singleton] at hv
    rcases hv with hv | rfl
    · exact hi.words v hv
    · exact ⟨hc, hw, hf⟩

/-- Complete description of `add_word`. -/
theorem addWord_cases {cf : List Char → List Char} (hcf : ∀ w, cf (cf w) = cf w) {st : WL}
    (hi : WLInv cf st) (v : PyVal) :
    st.addWord cf v =
      match v with
      | .str w =>
        if w = [] then (st, .error .valueError)
        else if st.fold cf w ∈ st.wordList then (st, .ok ())
        else if ¬ ('\x02' ∉ st.fold cf w ∧ '\x03' ∉ st.fold cf w) then (st, .error .assertionError)
        else if st.fold cf w = [] then (st, .error .valueError)
        else (st.inserted (st.fold cf w), .ok ())
      | _ => (st, .error .typeError) := by
  cases v with
  | int i => rfl
  | other => rfl
  | str w =>
    simp only [WL.addWord]
    by_cases h0 : w = []
    · simp [h0]
    have h0' : ¬ (w.length = 0) := by simpa using h0
    rw [if_neg h0', if_neg h0]
    have hhas : Dict.has st.wordIndices (st.fold cf w) = decide (st.fold cf w ∈ st.wordList) := by
      rw [Bool.eq_iff_iff, Dict.has_iff, hi.keys.mem_iff, decide_eq_true_iff]
    rw [hhas]
    by_cases h1 : st.fold cf w ∈ st.wordList
    · simp [h1]
    rw [if_neg (by simpa using h1), if_neg h1]
    by_cases h2 : '\x02' ∈ st.fold cf w ∨ '\x03' ∈ st.fold cf w
    · rw [if_pos h2, if_pos]
      rintro ⟨ha, hb⟩
      rcases h2 with h2 | h2
      · exact ha h2
      · exact hb h2
    rw [if_neg h2, if_neg (by rw [not_or] at h2; simpa using h2)]
    by_cases h3 : st.fold cf w = []
    · rw [if_pos h3]
      simp [WL.resolve, h3]
    · rw [if_neg h3, resolve_new hi h3 (fold_fold hcf st w) h1]
      rfl

theorem WLInv.addWord {cf : List Char → List Char} (hcf : ∀ w, cf (cf w) = cf w) {st : WL}
    (hi : WLInv cf st) (v : PyVal) : WLInv cf (st.addWord cf v).1 := by
  rw [addWord_cases hcf hi]
  cases v with
  | int i => exact hi
  | other => exact hi
  | str w =>
    simp only
    split
    · exact hi
    split
    · exact hi
    split
    · exact hi
    split
    · exact hi
    · rename_i h1 h2 h3 h4
      rw [not_not] at h3
      exact hi.inserted h3 h4 (fold_fold hcf st w) h2

end Verif
